import Verif.Model.Outcome
import Verif.Model.Basis
import Verif.Model.Symmetrize
import Mathlib.Analysis.Real.Sqrt

/-!
# Model of the lattice part of `LatticeMinimizer` (jdftx/electronic/LatticeMinimizer.cpp)

Construction of the projector onto free directions, constraint of search directions, and the change of the lattice by a
step.  Exact real arithmetic.  Not modelled: ions, wavefunctions, the dynamics mode and the energy.
-/
namespace Jdftx.LatMin
open Jdftx.M3 Jdftx.Sym
noncomputable section

/-- matrix3.h:170-175 `outer`. -/
def outer (a b : V3 ℝ) : Mat ℝ := fun i j => a i * b j

/-- vector3.h:67-68 `length`. -/
def length (v : V3 ℝ) : ℝ := Real.sqrt (dot v v)

/-- LatticeMinimizer.cpp:125-126: remove the components along the previous fixed vectors, one after the other. -/
def removeAll : List (V3 ℝ) → V3 ℝ → V3 ℝ
  | [], vk => vk
  | vPrev :: rest, vk => removeAll rest (fun i => vk i - vPrev i * dot vPrev vk)

/-- LatticeMinimizer.cpp:122-131: the loop over lattice vectors; `fixed k` is the condition of line 123.  Returns `vFixed`
and `Pfree`. -/
def freeLoop (R : Mat ℝ) (fixed : Fin 3 → Bool) : List (Fin 3) → List (V3 ℝ) → Mat ℝ → List (V3 ℝ) × Mat ℝ
  | [], vs, P => (vs, P)
  | k :: ks, vs, P =>
    if fixed k then
      let vk := removeAll vs (column R k)
      let vk : V3 ℝ := fun i => vk i * (1 / length vk)
      freeLoop R fixed ks (vs ++ [vk]) (fun i j => P i j - outer vk vk i j)
    else freeLoop R fixed ks vs P

/-- LatticeMinimizer.cpp:118-133: `Pfree`, and the refusal when nothing is free (which the code makes outside dynamics only). -/
def pfree (R : Mat ℝ) (fixed : Fin 3 → Bool) : Res (Mat ℝ) :=
  let r := freeLoop R fixed [0, 1, 2] [] (diag 1 1 1)
  if r.1.length = 3 then .error .die else .ok r.2

/-- LatticeMinimizer.cpp:107-115: the check that move scales agree along symmetry-connected lattice vectors. -/
def scalesOk (sym : List (Op ℝ)) (scale : Fin 3 → ℝ) : Prop :=
  ∀ op ∈ sym, ∀ i j, op.rot i j ≠ 0 → scale i = scale j

/-- LatticeMinimizer.cpp:238-248 `constrain`, lattice part: `R` is the present lattice. -/
def constrain (R Pfree : Mat ℝ) (sym : List (Op ℝ)) (d : Mat ℝ) : Mat ℝ :=
  let d1 : Mat ℝ := fun i j => (1/2) * (d i j + transpose d i j)
  let d2 := mulMM (mulMM Pfree d1) Pfree
  symmetrizeTensor R (Basis.inv R) sym d2

/-- LatticeMinimizer.cpp:169-171 `step`: the new lattice.  A singular result leaves the code without an inverse lattice
(infinities); that is undefined here. -/
def step (R d : Mat ℝ) (alpha : ℝ) : Res (Mat ℝ) :=
  let R' := mulMM (fun i j => diag 1 1 1 i j + alpha * d i j) R
  if det R' = 0 then .error .ub else .ok R'

/-- A history of constrained steps: raw directions and step sizes. -/
def run (Pfree : Mat ℝ) (sym : List (Op ℝ)) : List (Mat ℝ × ℝ) → Mat ℝ → Res (Mat ℝ)
  | [], R => .ok R
  | (d, alpha) :: rest, R =>
    match step R (constrain R Pfree sym d) alpha with
    | .error e => .error e
    | .ok R' => run Pfree sym rest R'

end
end Jdftx.LatMin
