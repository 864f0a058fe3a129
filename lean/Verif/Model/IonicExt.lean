import Verif.Model.Mat3
import Verif.Model.Outcome
import Verif.Model.FluidTrans
import Mathlib.Analysis.SpecialFunctions.Exp
import Mathlib.Analysis.SpecialFunctions.Trigonometric.Basic
import Mathlib.Analysis.SpecialFunctions.Pow.Real
import Mathlib.Algebra.BigOperators.Fin

/-!
# Model of external potentials on ions

jdftx/electronic/IonicGaussianPotential.cpp, jdftx/electronic/Metadynamics.cpp, and their calls from jdftx/electronic/IonInfo.cpp and IonicMinimizer.cpp. Exact arithmetic. Not modelled:
the state file (written with 15 digits) and other pair potentials, which do not change the bias potential.
-/
namespace Jdftx.IonExt
noncomputable section
open M3 Real

variable {n : ℕ}

/-- core/Coulomb.h:96-106 `Atom`, with the fields that are used here. -/
structure Atom where
  pos : V3 ℝ
  force : V3 ℝ
  sp : ℕ

/-! ### Gaussian potentials -/

/-- IonicGaussianPotential.h:31. -/
inductive Geometry | spherical | cylindrical | planar

/-- IonicGaussianPotential.h:27-33. -/
structure Gauss where
  iSpecies : ℕ
  U0 : ℝ
  sigma : ℝ
  geometry : Geometry
  center : V3 ℝ

/-- IonicGaussianPotential.cpp:11-13: `posWrapped`. -/
def wrap (g : Gauss) (x : V3 ℝ) : V3 ℝ := fun k => (x k - g.center k) - (⌊0.5 + (x k - g.center k)⌋ : ℤ)

/-- IonicGaussianPotential.cpp:17-22: `rSq`. -/
def rSq (g : Gauss) (r : V3 ℝ) : ℝ :=
  match g.geometry with
  | .spherical => dot r r
  | .cylindrical => r 0 * r 0 + r 1 * r 1
  | .planar => r 2 * r 2

/-- IonicGaussianPotential.cpp:17-22: `rSq_r`. -/
def rSqr (g : Gauss) (r : V3 ℝ) : V3 ℝ :=
  match g.geometry with
  | .spherical => fun k => 2 * r k
  | .cylindrical => vec (2 * r 0) (2 * r 1) 0
  | .planar => vec 0 0 (2 * r 2)

/-- IonicGaussianPotential.cpp:6: `mhalfInvSigmaSq`. -/
def mhalf (g : Gauss) : ℝ := -0.5 / (g.sigma * g.sigma)

/-- IonicGaussianPotential.cpp:25: `Ecur`. -/
def Ecur (g : Gauss) (R : Mat ℝ) (x : V3 ℝ) : ℝ := g.U0 * exp (mhalf g * rSq g (mulMV R (wrap g x)))

/-- IonicGaussianPotential.cpp:26: the Cartesian force. -/
def cartForce (g : Gauss) (R : Mat ℝ) (x : V3 ℝ) : V3 ℝ := fun k => (-Ecur g R x * mhalf g) * rSqr g (mulMV R (wrap g x)) k

/-- IonicGaussianPotential.cpp:3-33 `energyAndGrad`: returned energy. -/
def gaussEnergy (g : Gauss) (R : Mat ℝ) (atoms : Fin n → Atom) : ℝ := ∑ a, if (atoms a).sp = g.iSpecies then Ecur g R (atoms a).pos else 0

/-- IonicGaussianPotential.cpp:28: atoms with the force added. -/
def gaussAtoms (g : Gauss) (R : Mat ℝ) (atoms : Fin n → Atom) (a : Fin n) : Atom :=
  if (atoms a).sp = g.iSpecies then { atoms a with force := fun k => (atoms a).force k + mulMV (M3.transpose R) (cartForce g R (atoms a).pos) k } else atoms a

/-- IonicGaussianPotential.cpp:29: `E_RRT`. -/
def gaussRRT (g : Gauss) (R : Mat ℝ) (atoms : Fin n → Atom) : Mat ℝ := fun i j =>
  ∑ a, if (atoms a).sp = g.iSpecies then -(mulMV R (wrap g (atoms a).pos) i * cartForce g R (atoms a).pos j) else 0

/-- IonicGaussianPotential.cpp:31: `*E_RRTptr` afterwards. -/
def gaussStress (g : Gauss) (R : Mat ℝ) (atoms : Fin n → Atom) (S : Mat ℝ) : Mat ℝ := fun i j => S i j + 0.5 * (gaussRRT g R atoms i j + gaussRRT g R atoms j i)

/-! ### Metadynamics -/

/-- Metadynamics.h:28-34. -/
structure Bond where
  iSp1 : ℕ
  at1 : ℕ
  iSp2 : ℕ
  at2 : ℕ
  resolution : ℝ
  energyPerStep : ℝ

/-- Metadynamics.cpp:48-57 `selectAtom`; `c` is `atCount`. -/
def selectFrom (atoms : Fin n → Atom) (iSp at' : ℕ) : List (Fin n) → ℕ → Res (Fin n)
  | [], _ => .error .die
  | i :: l, c => if (atoms i).sp = iSp then if c = at' then .ok i else selectFrom atoms iSp at' l (c + 1) else selectFrom atoms iSp at' l c

def selectAtom (atoms : Fin n → Atom) (iSp at' : ℕ) : Res (Fin n) := selectFrom atoms iSp at' (List.finRange n) 0

/-- Metadynamics.cpp:63-64: `dpos`; `round` rounds halves away from zero. -/
def dpos (x y : V3 ℝ) : V3 ℝ := fun k => (x k - y k) - (Fluid.roundSym (x k - y k) : ℤ)

/-- Metadynamics.cpp:65: `bondLength`. -/
def bondLength (R : Mat ℝ) (x y : V3 ℝ) : ℝ := sqrt (metricLengthSq (mulMM (M3.transpose R) R) (dpos x y))

/-- Metadynamics.cpp:68: `min_size`. The conversion to an unsigned integer is undefined for values that are not finite or at most -1. -/
def minSize (res b : ℝ) : Res ℕ := if res = 0 ∨ (⌈b / res⌉ : ℤ) ≤ -1 then .error .ub else .ok ((⌈b / res⌉ : ℤ).toNat + 5)

/-- Metadynamics.cpp:69: padding. -/
def pad (pot : List ℝ) (m : ℕ) : List ℝ := if pot.length < m then pot ++ List.replicate (m - pot.length) 0 else pot

/-- Metadynamics.cpp:70: `prefactor`. -/
def prefactor (b : Bond) : ℝ := b.energyPerStep / (sqrt (2 * π) * b.resolution)

/-- Metadynamics.cpp:71-75: Gaussian added to the potential from the point at `r` on. -/
def deposit (b : Bond) (len : ℝ) : ℝ → List ℝ → List ℝ
  | _, [] => []
  | r, v :: l => (v + prefactor b * exp (-0.5 * ((r - len) / b.resolution) ^ 2)) :: deposit b len (r + b.resolution) l

/-- Result of `MetadynamicsBond::energyAndGrad`: energy, potential, and atoms with forces, `none` when these are not numbers. -/
structure Out (n : ℕ) where
  E : ℝ
  potential : List ℝ
  atoms : Option (Fin n → Atom)

/-- Metadynamics.cpp:78-86. -/
def interpolate (b : Bond) (R : Mat ℝ) (pot : List ℝ) (len : ℝ) (d : V3 ℝ) (atoms : Fin n → Atom) (a1 a2 : Fin n) : Res (Out n) :=
  let x := len / b.resolution
  let i : ℤ := ⌊x⌋
  let t := x - i
  if i < 0 then .error .ub
  else match pot[i.toNat]?, pot[i.toNat + 1]? with
    | some p0, some p1 =>
      let E := p0 * (1 - t) + p1 * t
      let E' := (p1 - p0) / b.resolution
      let f : V3 ℝ := fun k => (E' / len) * mulMV (mulMM (M3.transpose R) R) d k
      let s1 := Function.update atoms a1 { atoms a1 with force := fun k => (atoms a1).force k - f k }
      let s2 := Function.update s1 a2 { s1 a2 with force := fun k => (s1 a2).force k + f k }
      .ok ⟨E, pot, if len = 0 then none else some s2⟩
    | _, _ => .error .ub

/-- Metadynamics.cpp:59-87 `MetadynamicsBond::energyAndGrad`. -/
def bondEnergyAndGrad (b : Bond) (pot : List ℝ) (R : Mat ℝ) (atoms : Fin n → Atom) : Res (Out n) := do
  let a1 ← selectAtom atoms b.iSp1 b.at1
  let a2 ← selectAtom atoms b.iSp2 b.at2
  let d := dpos (atoms a1).pos (atoms a2).pos
  let len := bondLength R (atoms a1).pos (atoms a2).pos
  let m ← minSize b.resolution len
  interpolate b R (deposit b len 0 (pad pot m)) len d atoms a1 a2

/-- IonInfo.cpp:643-644 with Metadynamics.h:40: the lattice gradient is not passed to this function, so it remains what it was. -/
def bondStress (S : Mat ℝ) : Mat ℝ := S

/-- IonicMinimizer.cpp:300-308 with IonInfo.cpp:168/194 and 208/226: one calculation of energy and forces, in which `update` and then `ionicEnergyAndGrad` evaluate the external potentials;
the energy is that of the first evaluation, the forces that of the second. -/
def compute (b : Bond) (pot : List ℝ) (R : Mat ℝ) (atoms : Fin n → Atom) : Res (Out n) := do
  let o1 ← bondEnergyAndGrad b pot R atoms
  let o2 ← bondEnergyAndGrad b o1.potential R atoms
  .ok ⟨o1.E, o2.potential, o2.atoms⟩

end
end Jdftx.IonExt
