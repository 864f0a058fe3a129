import Verif.Model.Outcome
import Mathlib.Analysis.SpecialFunctions.Gaussian.GaussianIntegral
import Mathlib.Analysis.SpecialFunctions.Trigonometric.DerivHyp
import Mathlib.Analysis.SpecialFunctions.Log.Deriv

/-!
# Model of smearing and of the search for the chemical potential (jdftx/electronic/ElecInfo.cpp:288-427)

Exact real arithmetic; `tanh`, `erfc`, `exp`, `log` are the mathematical functions. The sums over the states of all processes (`allReduce`)
are one sum. `NAN` for `Bz` (magnetization fixed instead) is `none`. Loops take fuel; running out is `.diverge`.
-/
namespace Jdftx.Smear
noncomputable section

/-- `erfc` of the C library. -/
def erfc (x : ℝ) : ℝ := 1 - 2 / Real.sqrt Real.pi * ∫ t in (0 : ℝ)..x, Real.exp (-t ^ 2)

/-- ElecInfo.h: `smearingType`. -/
inductive Kind | fermi | gauss | mp1 | cold

/-- ElecInfo.cpp:289, 300, 311: `x`. -/
def xOf (σ mu eps : ℝ) : ℝ := (eps - mu) / (2 * σ)

/-- ElecInfo.cpp:290-296. -/
def occ (k : Kind) (x : ℝ) : ℝ :=
  match k with
  | .fermi => 0.5 * (1 - Real.tanh x)
  | .gauss => 0.5 * erfc x
  | .mp1 => 0.5 * erfc x - x * Real.exp (-x * x) / (2 * Real.sqrt Real.pi)
  | .cold => 0.5 * erfc (x + Real.sqrt 0.5) + Real.exp (-(x + Real.sqrt 0.5) ^ 2) / Real.sqrt (2 * Real.pi)

/-- ElecInfo.cpp:288-297 `smear`. -/
def smear (k : Kind) (σ mu eps : ℝ) : ℝ := occ k (xOf σ mu eps)

/-- ElecInfo.cpp:299-308 `smearPrime`. -/
def smearPrime (k : Kind) (σ mu eps : ℝ) : ℝ :=
  let x := xOf σ mu eps
  match k with
  | .fermi => -0.25 / (σ * Real.cosh x ^ 2)
  | .gauss => -Real.exp (-x * x) / (2 * Real.sqrt Real.pi * σ)
  | .mp1 => (x * x - 1.5) * Real.exp (-x * x) / (2 * Real.sqrt Real.pi * σ)
  | .cold => -Real.exp (-(x + Real.sqrt 0.5) ^ 2) * (2 + x * Real.sqrt 2) / (2 * Real.sqrt Real.pi * σ)

open Classical in
/-- ElecInfo.cpp:310-325 `smearEntropy`; `cut` is 1e-300. -/
def smearEntropy (cut : ℝ) (k : Kind) (σ mu eps : ℝ) : ℝ :=
  let x := xOf σ mu eps
  match k with
  | .fermi =>
    let f := 0.5 * (1 - Real.tanh x)
    let S := if f > cut then 0 - f * Real.log f else 0
    if 1 - f > cut then S - (1 - f) * Real.log (1 - f) else S
  | .gauss => Real.exp (-x * x) / Real.sqrt Real.pi
  | .mp1 => (0.5 - x * x) * Real.exp (-x * x) / Real.sqrt Real.pi
  | .cold => Real.exp (-(x + Real.sqrt 0.5) ^ 2) * (1 + x * Real.sqrt 2) / Real.sqrt Real.pi

/-- One state: weight and spin of the quantum number, eigenvalues. -/
structure Q where
  weight : ℝ
  spin : ℝ
  eps : List ℝ

/-- ElecInfo.h:112 `muEff`. -/
def muEff (mu Bz : ℝ) (q : Q) : ℝ := mu + Bz * q.spin

/-- ElecInfo.cpp:361-376 `magnetizationCalc`: `N` and `M` accumulated over states and bands; `f` is the smearing function. -/
def count (f : ℝ → ℝ → ℝ) (l : List Q) (mu Bz : ℝ) : ℝ × ℝ :=
  l.foldl (fun s q => q.eps.foldl (fun s e =>
    let wf := q.weight * f (muEff mu Bz q) e
    (s.1 + wf, s.2 + q.spin * wf)) s) (0, 0)

open Classical in
/-- Lines 389, 415: `while(f(lo)>=bound) lo-=(hi-lo)`. -/
def lower (f : ℝ → Res ℝ) (bound hi : ℝ) : Nat → ℝ → Res ℝ
  | 0, _ => .error .diverge
  | n+1, lo => do
    let v ← f lo
    if v ≥ bound then lower f bound hi n (lo - (hi - lo)) else .ok lo

open Classical in
/-- Lines 390, 416: `while(f(hi)<=bound) hi+=(hi-lo)`. -/
def upper (f : ℝ → Res ℝ) (bound lo : ℝ) : Nat → ℝ → Res ℝ
  | 0, _ => .error .diverge
  | n+1, hi => do
    let v ← f hi
    if v ≤ bound then upper f bound lo n (hi + (hi - lo)) else .ok hi

open Classical in
/-- Lines 393-399, 419-425: bisection. -/
def bisect (f : ℝ → Res ℝ) (target tol : ℝ) : Nat → ℝ → ℝ → Res (ℝ × ℝ)
  | 0, _, _ => .error .diverge
  | n+1, lo, hi =>
    if hi - lo ≥ tol then do
      let mid := 0.5 * (lo + hi)
      let v ← f mid
      if v > target then bisect f target tol n lo mid else bisect f target tol n mid hi
    else .ok (lo, hi)

/-- Lines 386, 412: `absTol`. -/
def absTol : ℝ := 1e-10
/-- Lines 386, 412: `relTol`. -/
def relTol : ℝ := 1e-14

/-- Lines 387, 413: `Mtol`, `nTol`. -/
def countTol (target : ℝ) : ℝ := max absTol (relTol * |target|)

/-- Lines 386-399 and 412-425, which differ only in the starting interval: bracket and bisect. -/
def search (f : ℝ → Res ℝ) (target σ lo hi : ℝ) (fuel : Nat) : Res (ℝ × ℝ) := do
  let lo ← lower f (target + countTol target) hi fuel lo
  let hi ← upper f (target - countTol target) lo fuel hi
  bisect f target (max (absTol * σ) (relTol * max |lo| |hi|)) fuel lo hi

/-- ElecInfo.cpp:379-404 `nElectronsCalc`: field and electron number; `Bz = none` for fixed magnetization. -/
def nElectronsCalc (f : ℝ → ℝ → ℝ) (σ : ℝ) (l : List Q) (Bz : Option ℝ) (Minitial : ℝ) (fuel : Nat) (mu : ℝ) : Res (ℝ × ℝ) :=
  match Bz with
  | some B => .ok (B, (count f l mu B).1)
  | none => do
    let r ← search (fun B => .ok (count f l mu B).2) Minitial σ (-0.1) 0.1 fuel
    let B := 0.5 * (r.1 + r.2)
    .ok (B, (count f l mu B).1)

/-- ElecInfo.cpp:408-427 `findMu`; the field returned through the reference is not included. -/
def findMu (f : ℝ → ℝ → ℝ) (σ : ℝ) (l : List Q) (Bz : Option ℝ) (Minitial nElectrons : ℝ) (fuel : Nat) : Res ℝ := do
  let r ← search (fun mu => (nElectronsCalc f σ l Bz Minitial fuel mu).map Prod.snd) nElectrons σ (-0.1) 0 fuel
  .ok (0.5 * (r.1 + r.2))

end
end Jdftx.Smear
