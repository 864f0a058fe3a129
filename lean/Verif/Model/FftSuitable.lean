import Verif.Model.Outcome

/-!
# Model of `fftSuitable` (jdftx/core/Util.h:189-195)

`int` is unbounded here; `%` and `/` truncate towards zero as in C++. Loops take fuel: `.error .diverge` means
that the loop has not ended within the fuel.
-/
namespace Jdftx.Grid

/-- Util.h:192, inner loop `while(tmpN % p == 0) tmpN /= p`. -/
def strip (p : Int) : Nat → Int → Res Int
  | 0, _ => .error .diverge
  | fuel+1, n => if n.tmod p = 0 then strip p fuel (n.tdiv p) else .ok n

/-- Util.h:189-195. -/
def fftSuitable (fuel : Nat) (N : Int) : Res Bool := do
  let n2 ← strip 2 fuel N
  let n3 ← strip 3 fuel n2
  let n5 ← strip 5 fuel n3
  let n7 ← strip 7 fuel n5
  return decide (n7 = 1)

end Jdftx.Grid
