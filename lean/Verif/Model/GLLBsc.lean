import Verif.Model.ElecMin
import Verif.Model.CoulombKernels

/-! # Model of the orbital-dependent GLLB-sc potential

jdftx/electronic/ExCorr_OrbitalDep_GLLBsc.cpp. Exact real arithmetic. `DBL_MAX` is a parameter `M`. The states of each process are a list; `allReduce` combines the processes. Densities of bands include the
ultrasoft contribution; the wavefunctions are given on the same grid as the densities. The symmetrization of the potential, the files and spinors are left out. A division by zero is `none` (not a number or
infinite).
-/
namespace Jdftx.GLLB
open Matrix Jdftx.ElecMin
open scoped ComplexConjugate
noncomputable section

variable {G : Type} [Fintype G] {nb : ℕ}

/-- What is used of one state: spin index, weight, fillings, `Hsub_eigs`, band densities (`diagouterI` and `augmentDensity`) and wavefunctions on the grid. -/
structure QState (G : Type) (nb : ℕ) where
  spin : Fin 2
  weight : ℝ
  F : Fin nb → ℝ
  eig : Fin nb → ℝ
  rho : Fin nb → G → ℝ
  psi : Fin nb → G → ℂ

/-- ExCorr_OrbitalDep_GLLBsc.cpp:35-37, 51-53: the loop over the states of a process and the bands. -/
def entries (P : List (QState G nb)) : List (QState G nb × Fin nb) := P.flatMap fun q => (List.finRange nb).map fun b => (q, b)

/-- ExCorr_OrbitalDep_GLLBsc.cpp:38-39: the weight of a band. -/
def bandWeight (homo : Bool) (F : ℝ) : ℝ :=
  let f := if homo then F else 1 - F
  open Classical in if f ≤ 0.5 then 0 else (1 - f) * (f - 0.5) * (f - 0.5)

/-- ExCorr_OrbitalDep_GLLBsc.cpp:34-47: the smeared version. -/
def smeared (homo : Bool) (procs : List (List (QState G nb))) (s : Fin 2) : Option ℝ :=
  let e := (procs.map fun P => ((entries P).map fun x => if x.1.spin = s then x.1.weight * bandWeight homo (x.1.F x.2) * x.1.eig x.2 else 0).sum).sum
  let w := (procs.map fun P => ((entries P).map fun x => if x.1.spin = s then x.1.weight * bandWeight homo (x.1.F x.2) else 0).sum).sum
  open Classical in if w = 0 then none else some (e / w)

open Classical in
/-- ExCorr_OrbitalDep_GLLBsc.cpp:50-61, and 140-147 with other energies: the largest energy of bands that are at least half filled, or the smallest of those at most half filled, in one process. -/
def extremalProc (M : ℝ) (homo : Bool) (en : QState G nb → Fin nb → ℝ) (P : List (QState G nb)) (s : Fin 2) : ℝ :=
  (entries P).foldl (fun a x => if x.1.spin = s then
    (if homo then (if x.1.F x.2 ≥ 0.5 then max a (en x.1 x.2) else a) else (if x.1.F x.2 ≤ 0.5 then min a (en x.1 x.2) else a)) else a) (if homo then -M else M)

/-- ExCorr_OrbitalDep_GLLBsc.cpp:62-63, 148-149: combine the processes. -/
def extremal (M : ℝ) (homo : Bool) (en : QState G nb → Fin nb → ℝ) (procs : List (List (QState G nb))) (s : Fin 2) : ℝ :=
  (procs.map fun P => extremalProc M homo en P s).foldl (fun a x => if homo then max a x else min a x) (if homo then -M else M)

open Classical in
/-- ExCorr_OrbitalDep_GLLBsc.cpp:31-65 `getExtremalEnergy`. -/
def extremalEnergy (M width : ℝ) (homo : Bool) (procs : List (List (QState G nb))) (s : Fin 2) : Option ℝ :=
  if width ≠ 0 then smeared homo procs s else some (extremal M homo QState.eig procs s)

/-- ExCorr_OrbitalDep_GLLBsc.cpp:167: the smoothed positive part. -/
def smooth (X : ℝ) : ℝ := 0.5 * (Real.exp (-X * X) / Real.sqrt Real.pi + X * (1 + CoulK.erf X))

open Classical in
/-- ExCorr_OrbitalDep_GLLBsc.cpp:163-171 `smoothedSqrt`. -/
def smoothedSqrt (de width : ℝ) : ℝ :=
  if width ≠ 0 then
    let X := de / width
    if X < -5 then 0
    else if X < 5 then Real.sqrt (width * smooth X)
    else Real.sqrt de
  else Real.sqrt (max 0 de)

/-- ExCorr_OrbitalDep_GLLBsc.cpp:175: `Kx`. -/
def Kx : ℝ := 8 * Real.sqrt 2 / (3 * Real.pi * Real.pi)

/-- ExCorr_OrbitalDep_GLLBsc.cpp:183-185: `Feff`. -/
def feff (width : ℝ) (eHOMO : Fin 2 → ℝ) (eLUMO : Option (Fin 2 → ℝ)) (q : QState G nb) (b : Fin nb) : ℝ :=
  let deTerm := smoothedSqrt (eHOMO q.spin - q.eig b) width
  let deTerm := match eLUMO with
    | none => deTerm
    | some l => smoothedSqrt (l q.spin - q.eig b) width - deTerm
  q.F b * Kx * deTerm

open Classical in
/-- ExCorr_OrbitalDep_GLLBsc.cpp:173-198 `getPotential`. `n` is the electron density. -/
def potential (width : ℝ) (eHOMO : Fin 2 → ℝ) (eLUMO : Option (Fin 2 → ℝ)) (n : Fin 2 → G → ℝ) (procs : List (List (QState G nb))) (s : Fin 2) (r : G) : Option ℝ :=
  if n s r = 0 then none
  else some ((procs.map fun P => (P.map fun q => if q.spin = s then q.weight * ∑ b, feff width eHOMO eLUMO q b * q.rho b r else 0).sum).sum * (1 / n s r))

/-- ExCorr_OrbitalDep_GLLBsc.cpp:104, 126: the matrix of the discontinuity potential. `dV` is the volume of a grid point. -/
def hPert (dV : ℝ) (V : Fin 2 → G → ℝ) (q : QState G nb) : ElecMin.Mat nb := Matrix.of fun a b => ∑ r, conj (q.psi a r) * (((dV * V q.spin r : ℝ) : ℂ) * q.psi b r)

/-- ExCorr_OrbitalDep_GLLBsc.cpp:127-128: `Hqp`. -/
def hQP (dV : ℝ) (V : Fin 2 → G → ℝ) (q : QState G nb) : ElecMin.Mat nb :=
  let mask : ElecMin.Mat nb := diagonal fun b => ((1 - q.F b : ℝ) : ℂ)
  diagonal (fun b => (q.eig b : ℂ)) + mask * hPert dV V q * mask

/-- ExCorr_OrbitalDep_GLLBsc.cpp:129-130: quasiparticle energies. -/
def eigsQP (l : Lapack nb) (dV : ℝ) (V : Fin 2 → G → ℝ) (q : QState G nb) : Fin nb → ℝ := (l.eig (hQP dV V q)).2

/-- ExCorr_OrbitalDep_GLLBsc.cpp:140-155: the gap and the contribution of the discontinuity that are printed. -/
def gap (M : ℝ) (l : Lapack nb) (dV : ℝ) (V : Fin 2 → G → ℝ) (eLUMO : Fin 2 → ℝ) (procs : List (List (QState G nb))) (s : Fin 2) : ℝ × ℝ :=
  let eHOMOqp := extremal M true (eigsQP l dV V) procs s
  let eLUMOqp := extremal M false (eigsQP l dV V) procs s
  (eLUMOqp - eHOMOqp, eLUMOqp - eLUMO s)

end
end Jdftx.GLLB
