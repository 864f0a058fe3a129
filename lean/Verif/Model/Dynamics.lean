import Mathlib.Algebra.Field.Defs
import Mathlib.Algebra.Module.Basic
import Mathlib.Algebra.Module.Equiv.Basic
import Verif.Model.Outcome

/-!
# Model of molecular dynamics (jdftx/electronic/IonicDynamics.cpp)

`V` is the space of all atomic displacements. The lattice is fixed (no barostat), so that `R` is a fixed linear bijection
from lattice to Cartesian coordinates acting on every atom. Thermostat variables beyond the velocities are not modelled:
`thermo` gives the velocity-dependent acceleration, zero without a thermostat.
-/
namespace Jdftx.Dyn

variable {K V : Type} [Field K] [AddCommGroup V] [Module K V]

/-- What the integrator is run on. -/
structure Env (K V : Type) [Field K] [AddCommGroup V] [Module K V] where
  /-- `e.gInfo.R` on every atom. -/
  R : V ≃ₗ[K] V
  /-- `lmin.constrain` (IonicMinimizer.cpp:344-401). -/
  constrain : V → V
  /-- Cartesian force divided by mass at given lattice coordinates (IonicMinimizer.cpp:308-321); `none` when the energy
  is not a number (IonicMinimizer.cpp:294-297). -/
  rawAccel : V → Option V
  /-- IonicDynamics.cpp:192-244: velocity-dependent acceleration of the thermostat. -/
  thermo : V → V
  dt : K

/-- `accelV` when `statT` is false (IonicDynamics.cpp:192-193, 244). -/
def noThermo : V → V := fun _ => 0

/-- Positions and velocities in lattice coordinates (`SpeciesInfo::atpos`, `SpeciesInfo::velocities`) and the accelerations
kept by `run`. -/
structure St (V : Type) where
  pos : V
  vel : V
  accel : V
  accelV : V

/-- IonicDynamics.cpp:103-125 `getVelocities`. -/
def getVelocities (env : Env K V) (vel : V) : V := env.constrain (env.R vel)

/-- IonicDynamics.cpp:128-133 `setVelocities`. -/
def setVelocities (env : Env K V) (v : V) : V := env.R.symm v

/-- IonicDynamics.cpp:177-183 `computePE` with IonicMinimizer.cpp:311-323. -/
def computePE (env : Env K V) (pos : V) : Res V :=
  match env.rawAccel pos with
  | none => .error .die
  | some a => .ok (env.constrain a)

/-- IonicDynamics.cpp:263: state before the loop. `thermostat` (line 188) stores the constrained velocities. -/
def initRun (env : Env K V) (pos vel : V) : Res (St V) :=
  match computePE env pos with
  | .error e => .error e
  | .ok a =>
    let v := getVelocities env vel
    .ok ⟨pos, setVelocities env v, a, env.thermo v⟩

/-- IonicDynamics.cpp:270-282: one velocity-Verlet step. The displacement is IonicMinimizer.cpp:203 and 275-282. -/
def stepRun (env : Env K V) (s : St V) : Res (St V) :=
  let vel0 := getVelocities env s.vel
  let vel1 := vel0 + (1/2 * env.dt) • (s.accel + s.accelV)
  let pos := s.pos + env.dt • env.R.symm vel1
  match computePE env pos with
  | .error e => .error e
  | .ok a =>
    let vel2 := vel1 + (1/2 * env.dt) • (a + s.accelV)
    let aVnew := env.thermo vel2
    let vel3 := vel2 + (1/2 * env.dt) • (aVnew - s.accelV)
    .ok ⟨pos, setVelocities env vel3, a, env.thermo vel3⟩

/-- IonicDynamics.cpp:265-290: `n` steps. -/
def steps (env : Env K V) : Nat → St V → Res (St V)
  | 0, s => .ok s
  | n+1, s => match stepRun env s with
    | .error e => .error e
    | .ok s' => steps env n s'

/-- IonicDynamics.cpp:258-291 `run` with `nSteps = n`: final positions and velocities. -/
def run (env : Env K V) (n : Nat) (pos vel : V) : Res (V × V) :=
  match initRun env pos vel with
  | .error e => .error e
  | .ok s => match steps env n s with
    | .error e => .error e
    | .ok s' => .ok (s'.pos, s'.vel)

/-- IonicDynamics.cpp:284-289: the accumulated density after the step of index `iter`, `t = iter*dt` (line 266).
`none` is the division by zero at `dt = 0`. -/
def accumStep [DecidableEq K] {F : Type} [AddCommGroup F] [Module K F] (dt : K) (iter : Nat) (n nAccum : F) : Option F :=
  let t := (iter : K) * dt
  if t + dt = 0 then none
  else some (nAccum + (dt / (t + dt)) • (n - nAccum))

/-- IonicDynamics.cpp:265-290: accumulation over a run; the list holds the densities after each step. -/
def accumRun [DecidableEq K] {F : Type} [AddCommGroup F] [Module K F] (dt : K) : Nat → List F → F → Option F
  | _, [], acc => some acc
  | iter, n :: ns, acc => match accumStep dt iter n acc with
    | none => none
    | some acc' => accumRun dt (iter+1) ns acc'

end Jdftx.Dyn
