import Verif.Model.Mat3
import Mathlib.Algebra.Field.Defs

/-!
# Specification for C31
-/
namespace Jdftx.Kpts
open Jdftx.M3

variable {K : Type} [Field K]

/-- Two k-points differ by a reciprocal lattice vector. -/
def EquivK (a b : V3 K) : Prop := ∀ c, ∃ n : Int, a c = b c + (n : K)

/-- `x` multiplied by the folding is `k` up to a reciprocal lattice vector. -/
def FoldsTo (kfold : V3 Int) (x k : V3 K) : Prop := EquivK (fun c => (kfold c : K) * x c) k

end Jdftx.Kpts
