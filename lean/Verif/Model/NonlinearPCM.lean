import Verif.Model.Spline
import Verif.Model.CavityGrid
import Mathlib.Analysis.SpecialFunctions.Log.Basic
import Mathlib.Analysis.SpecialFunctions.Trigonometric.DerivHyp

/-!
# Model of the nonlinear dielectric and ionic response functions
(jdftx/fluid/PCM_internal.h:242-391, PCM_internal.cpp:214-276, NonlinearPCM.cpp:38-110, core/RadialFunction.h:62-72)

Exact real arithmetic. Loops without an evident bound take fuel: `none` means that the fuel ran out. The GPU versions run the same
per-point functions.
-/
namespace Jdftx.NPCM
open Cavity (dot3)
noncomputable section

/-- `while(cond(a)) a = step(a)`. -/
def whileF {α : Type} (cond : α → Prop) [DecidablePred cond] (step : α → α) : Nat → α → Option α
  | 0, a => if cond a then none else some a
  | n+1, a => if cond a then whileF cond step n (step a) else some a

/-- The bisection loops of PCM_internal.h:275-284 and 358-367: `f` less than `c` moves the lower end. -/
def bisect (f : ℝ → ℝ) (c dx : ℝ) (fuel : Nat) (lo hi : ℝ) : Option ℝ :=
  (whileF (fun s : ℝ × ℝ => s.2 - s.1 > dx)
    (fun s => if f (0.5 * (s.2 + s.1)) < c then (0.5 * (s.2 + s.1), s.2) else (s.1, 0.5 * (s.2 + s.1))) fuel (lo, hi)).map
    fun s => 0.5 * (s.2 + s.1)

/-! ### Ionic screening -/

/-- PCM_internal.h:246-250 (`NZ` is not used). -/
structure Screening where
  linear : Bool
  NT : ℝ
  ZbyT : ℝ
  x0plus : ℝ
  x0minus : ℝ

namespace Screening

/-- PCM_internal.cpp:216-227: the constructor. -/
def mk' (linear : Bool) (T Nion Zion VhsPlus VhsMinus : ℝ) : Res Screening :=
  if Nion * VhsPlus + Nion * VhsMinus ≥ 1 then .error .die else .ok ⟨linear, Nion * T, Zion / T, Nion * VhsPlus, Nion * VhsMinus⟩

variable (m : Screening)

/-- PCM_internal.cpp:220. -/
def x0 : ℝ := m.x0plus + m.x0minus

/-- PCM_internal.h:258. -/
def comb (x : ℝ) : ℝ := (x - m.x0) * (1 / (1 - x)) * (1 / (1 - m.x0))

/-- PCM_internal.h:255-263 `fHS`: the value. -/
def f (x : ℝ) : ℝ := (2 / m.x0) * m.comb x * m.comb x

/-- PCM_internal.h:255-263 `fHS`: the derivative returned through `f_xIn`. -/
def f_x (x : ℝ) : ℝ := (2 / m.x0) * 2 * m.comb x * ((1 / (1 - x)) * (1 / (1 - x)))

/-- PCM_internal.h:266-269 `rootFunc`. -/
def rootFunc (x V : ℝ) : ℝ :=
  x - (m.x0plus * Real.exp (-V - m.f_x x * m.x0plus) + m.x0minus * Real.exp (V - m.f_x x * m.x0minus))

/-- PCM_internal.h:272-286 `x_from_V`. -/
def x_from_V (fuel : Nat) (V : ℝ) : Option ℝ := do
  let xLo ← whileF (fun x => m.rootFunc x V > 0) (fun x => x * 0.5) fuel m.x0
  let xHi ← whileF (fun x => m.rootFunc x V < 0) (fun x => 0.5 * (1 + x)) fuel xLo
  let x := 0.5 * (xHi + xLo)
  let dx := x * 1e-13
  bisect (fun x => m.rootFunc x V) 0 dx fuel xLo xHi

/-- NonlinearPCM.cpp:101-105. -/
def energy (x V : ℝ) : ℝ :=
  Real.exp (V - m.f_x x * m.x0minus) + Real.exp (-V - m.f_x x * m.x0plus) + m.f_x x * x - m.f x - 2

/-- NonlinearPCM.cpp:94-107: sample at one value of `Vmapped`. The member `linear` is not used. -/
def sample (fuel : Nat) (Vmapped : ℝ) : Option ℝ :=
  if |Vmapped| = 1 then some 0
  else do
    let V := Vmapped / (1 - Vmapped * Vmapped)
    let x ← m.x_from_V fuel V
    some (1 / (1 + m.energy x V))

/-- NonlinearPCM.cpp:91-108: the table. `Vmapped` runs from -1 to 1 in steps of 1/512 (exact in binary). -/
def table (fuel : Nat) : Option (List ℝ) := (List.range 1025).mapM fun (k : Nat) => m.sample fuel (-1 + k * (1 / 512))

end Screening

/-- RadialFunction.h:63-67. -/
def radial (coeff : Spline.Arr) (dGinv G : ℝ) : Res ℝ :=
  if G * dGinv ≥ (coeff.size : ℝ) - 5 then .ok 0 else Spline.value coeff (G * dGinv)

/-- RadialFunction.h:68-72. -/
def radialDeriv (coeff : Spline.Arr) (dGinv G : ℝ) : Res ℝ :=
  if G * dGinv ≥ (coeff.size : ℝ) - 5 then .ok 0
  else match Spline.deriv coeff (G * dGinv) with
    | .error e => .error e
    | .ok v => .ok (v * dGinv)

/-- PCM_internal.h:293-295. -/
def Screening.mapped (m : Screening) (phi : ℝ) : ℝ :=
  1 + 2 * (m.ZbyT * phi) / (1 + Real.sqrt (1 + 4 * (m.ZbyT * phi) * (m.ZbyT * phi)))

/-- PCM_internal.h:291-306 `apply_calc` at one point: what is added to `A`, `A_phi` and `A_s`. -/
def Screening.apply (m : Screening) (coeff : Spline.Arr) (dGinv s phi : ℝ) : Res (ℝ × ℝ × ℝ) := do
  let sqrtTerm := Real.sqrt (1 + 4 * (m.ZbyT * phi) * (m.ZbyT * phi))
  let L ← radial coeff dGinv (m.mapped phi)
  let E := 1 / L
  let F := (E - 1) * m.NT
  let Vmapped_phi := 2 * m.ZbyT / (sqrtTerm * (1 + sqrtTerm))
  let L' ← radialDeriv coeff dGinv (m.mapped phi)
  let F_phi := (-E * E * m.NT) * L' * Vmapped_phi
  return (s * F, s * F_phi, F)

/-! ### Dielectric response -/

/-- PCM_internal.h:319-323 (`Np` is not used after the constructor). -/
structure Dielectric where
  linear : Bool
  pByT : ℝ
  NT : ℝ
  alpha : ℝ
  X : ℝ

namespace Dielectric

/-- PCM_internal.cpp:247-259: the constructor. -/
def mk' (linear : Bool) (T Nmol pMol epsBulk epsInf : ℝ) : Res Dielectric :=
  let Np := Nmol * pMol
  let alpha := 3 - 4 * Real.pi * Np * pMol / (T * (epsBulk - epsInf))
  if pMol = 0 then .error .die
  else if alpha < 0 then .error .die
  else .ok ⟨linear, pMol / T, Nmol * T, alpha, (epsInf - 1) * T / (4 * Real.pi * Np * pMol)⟩

variable (m : Dielectric)

/-- PCM_internal.h:328-344 `calcFunctions`: `frac`. -/
def frac (eps : ℝ) : ℝ :=
  let epsSq := eps * eps
  if m.linear then 1 / 3
  else if eps < 1e-1 then 1 / 3 + epsSq * (-1 / 45 + epsSq * (2 / 945 + epsSq * (-1 / 4725)))
  else (eps / Real.tanh eps - 1) / epsSq

/-- PCM_internal.h:328-344 `calcFunctions`: `logsinch`. -/
def logsinch (eps : ℝ) : ℝ :=
  let epsSq := eps * eps
  if m.linear then epsSq * (1 / 6)
  else if eps < 1e-1 then epsSq * (1 / 6 + epsSq * (-1 / 180 + epsSq * (1 / 2835)))
  else if eps < 20 then Real.log (Real.sinh eps / eps) else eps - Real.log (2 * eps)

/-- PCM_internal.h:347-351 `x_from_eps`. -/
def x_from_eps (eps : ℝ) : ℝ := eps * (1 - m.alpha * m.frac eps)

/-- PCM_internal.h:354-369 `eps_from_x`. -/
def eps_from_x (fuel : Nat) (x : ℝ) : Option ℝ :=
  if x = 0 then some 0
  else do
    let epsLo ← whileF (fun e => m.x_from_eps e > x) (fun e => e * 0.95) fuel x
    let epsHi ← whileF (fun e => m.x_from_eps e < x) (fun e => e * 1.05) fuel epsLo
    let eps := 0.5 * (epsHi + epsLo)
    let deps := eps * 1e-13
    bisect m.x_from_eps x deps fuel epsLo epsHi

/-- NonlinearPCM.cpp:79-82. -/
def energy (eps x : ℝ) : ℝ := m.NT * (m.logsinch eps - 0.5 * m.alpha * (eps * m.frac eps) ^ 2 + 0.5 * m.X * (x * x))

/-- NonlinearPCM.cpp:71-84: sample at one value of `xMapped`. -/
def sample (fuel : Nat) (xMapped : ℝ) : Option ℝ :=
  if xMapped = 0 then some (0.5 * m.NT * (1 / (3 - m.alpha) + m.X))
  else if xMapped = 1 then some (0.5 * m.NT * m.X)
  else do
    let x := xMapped / (1 - xMapped)
    let eps ← m.eps_from_x fuel x
    some (m.energy eps x / (x * x))

/-- NonlinearPCM.cpp:68-85: the table. `xMapped` runs from 0 to 1 in steps of 1/512 (exact in binary). -/
def table (fuel : Nat) : Option (List ℝ) := (List.range 513).mapM fun (k : Nat) => m.sample fuel (k * (1 / 512))

/-- PCM_internal.h:376-378. -/
def xOf (E : Fin 3 → ℝ) : ℝ := m.pByT * Real.sqrt (dot3 E E)

/-- PCM_internal.h:373-389 `apply_calc` at one point: what is stored to `A`, `A_Dphi` and `A_s`. -/
def apply (coeff : Spline.Arr) (dGinv s : ℝ) (E : Fin 3 → ℝ) : Res (ℝ × (Fin 3 → ℝ) × ℝ) := do
  let x := m.xOf E
  let inv_x_plus_1 := 1 / (1 + x)
  let xMapped := x * inv_x_plus_1
  let F_by_x_sq ← radial coeff dGinv xMapped
  let F := F_by_x_sq * (x * x)
  let L' ← radialDeriv coeff dGinv xMapped
  let F_E_by_E := (L' * xMapped * inv_x_plus_1 + 2 * F_by_x_sq) * (m.pByT * m.pByT)
  return (s * F, fun k => (s * F_E_by_E) * E k, F)

end Dielectric
end
end Jdftx.NPCM
