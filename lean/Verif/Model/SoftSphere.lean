import Verif.Model.CavityGrid

/-!
# Model of the soft-sphere cavity (jdftx/fluid/PCM_internal.h:163-210, PCM_internal.cpp:134-186)

Exact real arithmetic. The loop over grid points is `THREAD_rLoop` (C20); each iteration writes its own elements, so the model gives the value at each point.
-/
namespace Jdftx.Cavity
open Box ExCorr
noncomputable section

/-- Atom position in lattice coordinates, and radius. -/
structure Atom where
  x : Fin 3 → ℝ
  R : ℝ

/-- matrix3.h `metric_length_squared`. -/
def metric (M : Fin 3 → Fin 3 → ℝ) (v : Fin 3 → ℝ) : ℝ :=
  v 0 * v 0 * M 0 0 + v 1 * v 1 * M 1 1 + v 2 * v 2 * M 2 2 + 2 * (v 0 * v 1 * M 0 1 + v 0 * v 2 * M 0 2 + v 1 * v 2 * M 1 2)

/-- PCM_internal.cpp:138, PCM_internal.h:172: lattice coordinates of a grid point (`iv*Sinv`). -/
def point (S : Size) (j : Nat) : Fin 3 → ℝ :=
  ![(rStart S j).x * (1 / (S.s0 : ℝ)), (rStart S j).y * (1 / (S.s1 : ℝ)), (rStart S j).z * (1 / (S.s2 : ℝ))]

/-- PCM_internal.h:171-174, 188-191: wrapped displacement. -/
def dx0 (x pt : Fin 3 → ℝ) (k : Fin 3) : ℝ := (x k - pt k) - ⌊0.5 + (x k - pt k)⌋

/-- PCM_internal.h:176-177, 196-197: distance to a periodic replica. -/
def dist (RTR : Fin 3 → Fin 3 → ℝ) (x pt : Fin 3 → ℝ) (rep : Fin 3 → Int) : ℝ :=
  Real.sqrt (metric RTR fun k => dx0 x pt k + rep k)

/-- PCM_internal.h:178, 200: one factor. -/
def sContrib (sigmaInv R dr : ℝ) : ℝ := 0.5 * Smear.erfc (sigmaInv * (R - dr))

/-- PCM_internal.h:165-182 `compute_calc`. -/
def softShape (sigmaInv : ℝ) (RTR : Fin 3 → Fin 3 → ℝ) (reps : List (Fin 3 → Int)) (atoms : List Atom) (pt : Fin 3 → ℝ) : ℝ :=
  atoms.foldl (fun s a => reps.foldl (fun s rep => s * sContrib sigmaInv a.R (dist RTR a.x pt rep)) s) 1

/-- PCM_internal.h:199-202: `E_dr`. -/
def E_dr (sigmaInv R dr E_shape s : ℝ) : ℝ :=
  (E_shape * s / sContrib sigmaInv R dr) * ((sigmaInv / Real.sqrt Real.pi) * Real.exp (-(sigmaInv * (R - dr)) * (sigmaInv * (R - dr))))

/-- PCM_internal.h:184-209 `propagateGradient_calc`: `E_x[i]`. -/
def softE_x (sigmaInv : ℝ) (RTR : Fin 3 → Fin 3 → ℝ) (reps : List (Fin 3 → Int)) (a : Atom) (pt : Fin 3 → ℝ) (s E_shape : ℝ) (k : Fin 3) : ℝ :=
  if s > 1e-14 then
    reps.foldl (fun E rep =>
      if dist RTR a.x pt rep < 1e-14 then E
      else E + (E_dr sigmaInv a.R (dist RTR a.x pt rep) E_shape s / dist RTR a.x pt rep)
        * (RTR k 0 * (dx0 a.x pt 0 + rep 0) + RTR k 1 * (dx0 a.x pt 1 + rep 1) + RTR k 2 * (dx0 a.x pt 2 + rep 2))) 0
  else 0

/-- PCM_internal.h:184-209 `propagateGradient_calc`: `E_radius[i]`. -/
def softE_R (sigmaInv : ℝ) (RTR : Fin 3 → Fin 3 → ℝ) (reps : List (Fin 3 → Int)) (a : Atom) (pt : Fin 3 → ℝ) (s E_shape : ℝ) : ℝ :=
  if s > 1e-14 then
    reps.foldl (fun E rep =>
      if dist RTR a.x pt rep < 1e-14 then E
      else E - E_dr sigmaInv a.R (dist RTR a.x pt rep) E_shape s) 0
  else 0

variable (g : Grid)

/-- PCM_internal.cpp:149-156: the shape function on the grid. -/
def softField (RTR : Fin 3 → Fin 3 → ℝ) (reps : List (Fin 3 → Int)) (sigma : ℝ) (atoms : List Atom) : Field := fun j =>
  softShape (1 / sigma) RTR reps atoms (point g.S j)

/-- PCM_internal.cpp:172-185: new value of `E_x[iAtom]` and `E_radius[iAtom]` for each atom, from the old values. -/
def softGrad (RTR : Fin 3 → Fin 3 → ℝ) (reps : List (Fin 3 → Int)) (sigma : ℝ) (atoms : List Atom) (shape E_shape : Field)
    (old : Nat → (Fin 3 → ℝ) × ℝ) (iAtom : Nat) : (Fin 3 → ℝ) × ℝ :=
  match atoms[iAtom]? with
  | none => old iAtom
  | some a =>
    (fun k => (old iAtom).1 k + g.dV * ∑ j ∈ Finset.range (nr g.S), softE_x (1 / sigma) RTR reps a (point g.S j) (shape j) (E_shape j) k,
     (old iAtom).2 + g.dV * ∑ j ∈ Finset.range (nr g.S), softE_R (1 / sigma) RTR reps a (point g.S j) (shape j) (E_shape j))

end
end Jdftx.Cavity
