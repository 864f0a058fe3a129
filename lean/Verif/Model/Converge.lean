import Mathlib.Algebra.Order.Group.Defs
import Mathlib.Algebra.Order.Group.Unbundled.Abs

/-!
# Model of the convergence checks (jdftx/core/Minimize.h:359-374, jdftx/core/Pulay.h:92-110)

The `std::deque`s are lists, oldest element first.  Energies are elements of an ordered group (no rounding, no NaN).
-/
namespace Jdftx.Conv

variable {K : Type} [AddCommGroup K] [LinearOrder K]

/-- Minimize.h:368-371: the loop over `i < nDiff` with the early `return false`. -/
def diffLoop (threshold : K) : List K → Bool
  | a :: b :: rest => if b < a - threshold then false else diffLoop threshold (b :: rest)
  | _ => true

/-- Minimize.h:361-374 `EdiffCheck::checkConvergence`: new history and answer. (`threshold` already is the absolute
value taken by the constructor, line 360.) -/
def ediffStep (nDiff : Nat) (threshold : K) (h : List K) (E : K) : List K × Bool :=
  match h.getLast? with
  | none => ([E], false)
  | some back =>
    if back ≤ E then ([E], false)
    else
      let h1 := h ++ [E]
      let h2 := if h1.length = nDiff + 2 then h1.tail else h1
      if h2.length = nDiff + 1 then (h2, diffLoop threshold h2) else (h2, false)

/-- The history after a sequence of calls, starting from a newly constructed check (Minimize.h:360). -/
def ediffHist (nDiff : Nat) (threshold : K) (calls : List K) : List K :=
  calls.foldl (fun h E => (ediffStep nDiff |threshold| h E).1) []

/-- The answer to the call with argument `E` after the given calls. -/
def ediffAnswer (nDiff : Nat) (threshold : K) (calls : List K) (E : K) : Bool :=
  (ediffStep nDiff |threshold| (ediffHist nDiff threshold calls) E).2

/-- Pulay.h:99-109 `NormCheck::checkConvergence`: new history and answer. -/
def normStep (nCheck : Nat) (threshold : K) (h : List Bool) (norm : K) : List Bool × Bool :=
  let h1 := h ++ [decide (|norm| < threshold)]
  let h2 := if h1.length = nCheck + 1 then h1.tail else h1
  (h2, if h2.length = nCheck then h2.all id else false)

/-- The history after a sequence of calls, starting from a newly constructed check (Pulay.h:98). -/
def normHist (nCheck : Nat) (threshold : K) (calls : List K) : List Bool :=
  calls.foldl (fun h E => (normStep nCheck |threshold| h E).1) []

/-- The answer to the call with argument `norm` after the given calls. -/
def normAnswer (nCheck : Nat) (threshold : K) (calls : List K) (norm : K) : Bool :=
  (normStep nCheck |threshold| (normHist nCheck threshold calls) norm).2

end Jdftx.Conv
