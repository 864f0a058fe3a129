import Verif.Model.Constrain
import Verif.Model.Outcome
import Mathlib.Analysis.Real.Sqrt

/-!
# Model of the thermostats and barostats (jdftx/electronic/IonicDynamics.cpp)

Real numbers replace `double`. The atoms of all species form one list of `n` atoms, as in `Verif.Model.Constrain`; `mass a` is
`sp->mass*amu` of its species. Velocities are Cartesian: the conversion to lattice coordinates and back in `setVelocities` and
`getVelocities` (IonicDynamics.cpp:103-146) is left out. Numbers computed by the electronic structure (`e.iInfo.stress`, forces)
are arguments.
-/
namespace Jdftx.Stat
open Jdftx.M3 Jdftx.Ion

noncomputable section

/-- IonicDynamicsParams.h `StatMethod`. -/
inductive Method where
  | none
  | berendsen
  | noseHoover
  deriving DecidableEq

/-- IonicDynamicsParams: the parameters read by `thermostat`, with `statL` for `statP or statStress` and `target` for
`stressTarget` (IonicDynamics.cpp:66-67). -/
structure Params where
  method : Method
  statL : Bool
  T0 : ℝ
  tDampT : ℝ
  tDampP : ℝ
  lenT : Nat
  lenP : Nat
  target : Mat ℝ

/-- What `thermostat` uses of the system: masses, the number of degrees of freedom (IonicDynamics.cpp:53-54), `lmin.nFree()`
(LatticeMinimizer.h:67) and the two parts of `lmin.constrain` (LatticeMinimizer.cpp:238-248). -/
structure Sys (n : Nat) where
  mass : Fin n → ℝ
  nDOF : Nat
  nFree : Nat
  con : Motion ℝ n → Motion ℝ n
  conL : Mat ℝ → Mat ℝ

/-- LatticeMinimizer.h:29-36 `LatticeGradient`, as velocity or as rate of change of velocity. Entry `j` of a chain counts only
when `j` is below the length of that chain. -/
@[ext] structure Vel (n : Nat) where
  ion : Motion ℝ n
  lat : Mat ℝ
  th : Nat → ℝ
  ba : Nat → ℝ

/-- IonicDynamics.cpp:169-174 `computeKE`. -/
def kinetic {n : Nat} (mass : Fin n → ℝ) (v : Motion ℝ n) : ℝ := ∑ a, (1/2 * mass a) * dot (v a) (v a)

/-- IonicDynamics.cpp:174: the temperature reported. -/
def temperature {n : Nat} (s : Sys n) (v : Motion ℝ n) : ℝ := 2 * kinetic s.mass v / s.nDOF

/-- IonicDynamics.cpp:148-161 `computePressure`: stress including the kinetic part. -/
def totalStress {n : Nat} (mass : Fin n → ℝ) (detR : ℝ) (stress : Mat ℝ) (v : Motion ℝ n) : Mat ℝ :=
  fun i j => stress i j - ∑ a, (mass a / detR) * (v a i * v a j)

/-- IonicDynamics.cpp:207-215 and 225-234: the rate of change of element `j` of a chain of length `len`. -/
def chainRate (len : Nat) (first second wSq : ℝ) (x : Nat → ℝ) (j : Nat) : ℝ :=
  if j < len then
    (if j = 0 then first else (if j = 1 then second else 1) * x (j-1) ^ 2 - wSq)
      - (if j + 1 < len then x j * x (j+1) else 0)
  else 0

/-- IonicDynamics.cpp:221: `nDOF_L`. -/
def nDOFL (nFree : Nat) : Nat := nFree * (nFree + 1) / 2

/-- IonicDynamics.cpp:185-245 `thermostat`: the rate of change of all velocities because of the thermostat and barostat.
Reading `vel.thermostat[0]` or `vel.barostat[0]` of an empty vector is undefined. The Berendsen barostat, which sets the strain
rate in `getVelocities`, contributes here only through the strain rate `v.lat`. -/
def thermostat {n : Nat} (p : Params) (s : Sys n) (detR : ℝ) (stress : Mat ℝ) (v : Vel n) : Res (Vel n) :=
  let KE := kinetic s.mass v.ion
  let st := totalStress s.mass detR stress v.ion
  let relErrKE := KE / (1/2 * s.nDOF * p.T0) - 1
  let omega := 1 / p.tDampT
  let finish (gamma : ℝ) (lat : Mat ℝ) (th ba : Nat → ℝ) : Vel n :=
    ⟨s.con (fun a => gamma • v.ion a - (if p.statL then mulMV v.lat (v.ion a) else 0)), s.conL lat, th, ba⟩
  match p.method with
  | .none => .ok ⟨0, 0, 0, 0⟩
  | .berendsen => .ok (finish (-(1/2) * omega * relErrKE) 0 0 0)
  | .noseHoover =>
    if p.lenT = 0 then .error .ub else
    let th := chainRate p.lenT (omega * omega * relErrKE) s.nDOF (omega * omega) v.th
    if p.statL then
      if p.lenP = 0 then .error .ub else
      let omegaL := 1 / p.tDampP
      let wL := omegaL * omegaL
      let lat : Mat ℝ := fun i j =>
        (wL / ((s.nDOF + s.nFree) * p.T0))
          * (detR * (p.target i j - st i j) + (2 * KE / s.nDOF) * (if i = j then 1 else 0)) - v.ba 0 * v.lat i j
      let ba := chainRate p.lenP (((s.nDOF + s.nFree) * 1 / nDOFL s.nFree) * M3.trace (mulMM (transpose v.lat) v.lat) - wL)
        (nDOFL s.nFree) wL v.ba
      .ok (finish (-v.th 0 - M3.trace v.lat / s.nDOF) lat th ba)
    else .ok (finish (-v.th 0) 0 th 0)

/-- Everything.cpp:170-174 and IonicDynamics.cpp:53-56: the number of degrees of freedom. -/
def countDOF {K L : Type} [Field K] [DecidableEq K] {n : Nat} (cs : Fin n → Constraint K L) : Res Nat :=
  let d := ∑ a, getDimension (cs a)
  let nDim := if d = 0 then 1 else d
  let nDOF := if nDim = 3 * n then nDim - 3 else nDim
  if nDOF = 0 then .error .die else .ok nDOF

/-- IonicDynamics.cpp:80-100 `initializeVelocities`: `draw` are the normal random numbers; `amu` converts masses, the code
divides by the square root of the mass without it. `none` is the division by zero at line 96, after which every velocity is
`0*inf`. -/
def initializeVelocities {n : Nat} (s : Sys n) (amu T0 : ℝ) (draw : Motion ℝ n) : Option (Motion ℝ n) :=
  let vel := s.con (fun a => (1 / Real.sqrt (s.mass a / amu)) • draw a)
  let KE := kinetic s.mass vel
  if KE = 0 then none else some (fun a => Real.sqrt ((1/2 * s.nDOF * T0) / KE) • vel a)

/-- LatticeMinimizer.cpp:241-247: the lattice part of `constrain`, without lattice symmetries (line 244). -/
def constrainLat (statP : Bool) (Pfree m : Mat ℝ) : Mat ℝ :=
  let m1 : Mat ℝ := fun i j => 1/2 * (m i j + transpose m i j)
  let m2 := mulMM (mulMM Pfree m1) Pfree
  if statP then fun i j => (M3.trace m2 / M3.trace Pfree) * Pfree i j else m2

end
end Jdftx.Stat
