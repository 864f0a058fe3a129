import Mathlib.Algebra.Order.Group.Defs
import Mathlib.Algebra.Order.Group.Unbundled.Abs

/-! # Specification of the convergence criteria, as conditions on the whole sequence of reported values -/
namespace Jdftx.Spec

variable {K : Type} [AddCommGroup K] [LinearOrder K]

/-- The last `n` elements of a list (all of it if shorter). -/
def lastN {α : Type} (n : Nat) (l : List α) : List α := l.drop (l.length - n)

/-- The last `n` successive changes exist, and each is a decrease by no more than `thr`. -/
def SmallDecreases (n : Nat) (thr : K) (l : List K) : Prop :=
  n + 1 ≤ l.length ∧ ∀ i, i < n → ∀ a b, (lastN (n+1) l)[i]? = some a → (lastN (n+1) l)[i+1]? = some b → b < a ∧ a - b ≤ thr

/-- The last `n` values exist and are smaller than `thr` in magnitude. -/
def SmallNorms (n : Nat) (thr : K) (l : List K) : Prop :=
  n ≤ l.length ∧ ∀ x ∈ lastN n l, |x| < thr

end Jdftx.Spec
