import Verif.Model.Mat3
import Verif.Model.Box
import Verif.Model.Outcome
import Mathlib.Analysis.Real.Pi.Bounds
import Mathlib.Analysis.Real.Sqrt
import Mathlib.Algebra.Order.Archimedean.Real.Basic

/-!
# Model of the plane-wave basis (jdftx/electronic/Basis.cpp, jdftx/core/GridInfo.cpp)

Exact real arithmetic; `int` does not overflow.
-/
namespace Jdftx.Basis
noncomputable section
open M3

/-- matrix3.h:264-267 `inv`. -/
def inv (m : Mat ℝ) : Mat ℝ := smul (1 / det m) (adjugate m)

/-- GridInfo.cpp:62 `G`. -/
def G (R : Mat ℝ) : Mat ℝ := smul (2 * Real.pi) (inv R)

/-- GridInfo.cpp:64 `GGT`. -/
def GGT (R : Mat ℝ) : Mat ℝ := mulMM (G R) (transpose (G R))

/-- vector3.h:67-68 `length`. -/
def length (v : V3 ℝ) : ℝ := Real.sqrt (v 0 * v 0 + v 1 * v 1 + v 2 * v 2)

/-- Basis.cpp:53 `iGbox[i]`; `int()` of a non-negative number is its floor. -/
def iGbox (R : Mat ℝ) (Ecut : ℝ) (k : V3 ℝ) (i : Fin 3) : Int :=
  1 + ⌊Real.sqrt (2 * Ecut) * length (column R i) / (2 * Real.pi)⌋ + ⌈|k i|⌉

/-- `for(x=-b; x<=b; x++)`. -/
def loop (b : Int) : List Int := (List.range (2 * b + 1).toNat).map fun (n : Nat) => -b + (n : Int)

/-- `iG+k`. -/
def plus (iG : Box.IV) (k : V3 ℝ) : V3 ℝ := vec (iG.x + k 0) (iG.y + k 1) (iG.z + k 2)

/-- Basis.cpp:60. -/
def below (R : Mat ℝ) (Ecut : ℝ) (k : V3 ℝ) (iG : Box.IV) : Prop := 1/2 * dot (plus iG k) (mulMV (GGT R) (plus iG k)) ≤ Ecut

open Classical in
/-- Basis.cpp:50-63: the vectors collected in `iGvec`. A negative cutoff makes the square root undefined. -/
def iGvec (R : Mat ℝ) (Ecut : ℝ) (k : V3 ℝ) : Res (List Box.IV) :=
  if Ecut < 0 then .error .ub
  else .ok (((loop (iGbox R Ecut k 0)).flatMap fun x => (loop (iGbox R Ecut k 1)).flatMap fun y =>
    (loop (iGbox R Ecut k 2)).map fun z => (⟨x, y, z⟩ : Box.IV)).filter fun iG => decide (below R Ecut k iG))

/-- Basis.cpp:62 `indexVec`. -/
def indexVec (S : Box.Size) (l : List Box.IV) : List Int := l.map (Box.fullGindex S)

/-- Basis.cpp:74-82, one vector from its index (`int` division truncates; the indices are not negative). -/
def decode (S : Box.Size) (index : Int) : Box.IV :=
  let stride1 : Int := S.s2
  let stride0 : Int := S.s1 * stride1
  let x := index.tdiv stride0
  let index := index - stride0 * x
  let y := index.tdiv stride1
  let index := index - stride1 * y
  ⟨Box.fold1 S.s0 x, Box.fold1 S.s1 y, Box.fold1 S.s2 index⟩

/-- Basis.cpp:101-105 `head`. -/
def head (l : List Box.IV) : List Nat :=
  (List.range l.length).filter fun n => match l[n]? with
    | some v => decide (v.x * v.x + v.y * v.y + v.z * v.z < 4)
    | none => false

end
end Jdftx.Basis
