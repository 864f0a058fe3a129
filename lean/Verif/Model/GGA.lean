import Verif.Model.LDA
import Verif.Model.Smear
import Mathlib.Analysis.SpecialFunctions.Arsinh

/-!
# Model of the GGA functionals (jdftx/electronic/ExCorr_internal_GGA.h)

Exact real arithmetic as in `Verif.Model.LDA`: `pow(x, -1./3)` is the real power with exponent `-1/3`, and decimal constants are the rational
numbers they denote. The model gives what the code adds at one grid point to `E[i]`, `E_n[s][i]` and `E_sigma[q][i]`; the derivative pointers are
taken to be non-null. A derivative that is not a number (division by zero, line 407) is `none`, and so is everything computed from it.
-/
namespace Jdftx.GGA
noncomputable section
open Jdftx.LDA (V1 V2 nCutoff rsOf)

/-- Energy per particle and its derivatives with respect to `rs` and `s2` (lines 127-130). -/
structure X2 where
  e : ℝ
  e_rs : ℝ
  e_s2 : Option ℝ

/-- Energy per particle and its derivatives with respect to `rs`, `zeta`, `g` and `t2` (lines 132-137). -/
structure C4 where
  e : ℝ
  e_rs : ℝ
  e_zeta : ℝ
  e_g : ℝ
  e_t2 : ℝ

/-! ### Exchange -/

/-- Lines 224-230 `slaterExchange`. -/
def slaterExchange (rs : ℝ) : V1 :=
  let rsInvMinus := -1 / rs
  let e := rsInvMinus * (0.75 * (1.5 / Real.pi) ^ (2 / 3 : ℝ))
  { e := e, e_rs := rsInvMinus * e }

/-- Lines 233-246 `GGA_PBE_exchange`. -/
def pbeExchange (kappa mu rs s2 : ℝ) : X2 :=
  let sl := slaterExchange rs
  let kappaByMu := kappa / mu
  let frac := -1 / (kappaByMu + s2)
  let F := 1 + kappa + (kappa * kappaByMu) * frac
  let F_s2 := (kappa * kappaByMu) * frac * frac
  { e_rs := sl.e_rs * F, e_s2 := some (sl.e * F_s2), e := sl.e * F }

open Classical in
/-- Lines 262-278 `GGA_PW91_Enhancement`: the factor and its derivative. -/
def pw91Enhancement (P Q R S T U s2 : ℝ) : ℝ × ℝ :=
  let s := Real.sqrt s2
  let asinhTerm := P * s * Real.arsinh (Q * s)
  let asinhTerm_s2 := if s2 ≠ 0 then 0.5 * (asinhTerm / s2 + (P * Q) / Real.sqrt (1 + (Q * Q) * s2)) else P * Q
  let gaussTerm := S * Real.exp (-T * s2)
  let gaussTerm_s2 := -T * gaussTerm
  let num := 1 + asinhTerm + s2 * (R - gaussTerm)
  let num_s2 := asinhTerm_s2 + (R - gaussTerm) - s2 * gaussTerm_s2
  let den := 1 + asinhTerm + U * s2 * s2
  let den_s2 := asinhTerm_s2 + 2 * U * s2
  (num / den, (num_s2 * den - num * den_s2) / (den * den))

/-- Lines 281-297 `GGA_eval<GGA_X_PW91>`. -/
def pw91Exchange (rs s2 : ℝ) : X2 :=
  let sl := slaterExchange rs
  let F := pw91Enhancement 0.19645 7.7956 0.2743 0.1508 100 0.004 s2
  { e_rs := sl.e_rs * F.1, e_s2 := some (sl.e * F.2), e := sl.e * F.1 }

/-- Value of `integralErfcGaussian` and its derivatives with respect to `A` and `B`. -/
structure I2 where
  v : ℝ
  v_A : ℝ
  v_B : ℝ

/-- Lines 305-314 `integralErfcGaussian<1>`. -/
def integral1 (A B : ℝ) : I2 :=
  let invApBsq := 1 / (A + B * B)
  let invsqrtApBsq := Real.sqrt invApBsq
  let inv3sqrtApBsq := invsqrtApBsq * invApBsq
  let invA := 1 / A
  { v_A := (B * (1.5 * A + B * B) * inv3sqrtApBsq - 1) * 0.5 * invA * invA
    v_B := -0.5 * inv3sqrtApBsq
    v := (1 - B * invsqrtApBsq) * 0.5 * invA }

/-- Lines 316-325 `integralErfcGaussian<2>`. -/
def integral2 (A B : ℝ) : I2 :=
  let invsqrtPi := 1 / Real.sqrt Real.pi
  let invApBsq := 1 / (A + B * B)
  let invA := 1 / A
  let atanTerm := Real.arctan (Real.sqrt A / B) * invA / Real.sqrt A
  { v_A := invsqrtPi * (B * (1.25 + 0.75 * B * B * invA) * invApBsq * invApBsq * invA - 0.75 * atanTerm / A)
    v_B := -invsqrtPi * invApBsq * invApBsq
    v := 0.5 * invsqrtPi * (-B * invApBsq / A + atanTerm) }

/-- Lines 327-337 `integralErfcGaussian<3>`. -/
def integral3 (A B : ℝ) : I2 :=
  let invApBsq := 1 / (A + B * B)
  let invsqrtApBsq := Real.sqrt invApBsq
  let inv3sqrtApBsq := invsqrtApBsq * invApBsq
  let inv5sqrtApBsq := inv3sqrtApBsq * invApBsq
  let invA := 1 / A
  { v_A := (-invA * invA + B * (0.375 * inv5sqrtApBsq + invA * (0.5 * inv3sqrtApBsq + invA * invsqrtApBsq))) * invA
    v_B := -0.75 * inv5sqrtApBsq
    v := (1 - B * (invsqrtApBsq + 0.5 * A * inv3sqrtApBsq)) * 0.5 * invA * invA }

/-- Lines 339-352 `integralErfcGaussian<5>`. -/
def integral5 (A B : ℝ) : I2 :=
  let invApBsq := 1 / (A + B * B)
  let invsqrtApBsq := Real.sqrt invApBsq
  let inv3sqrtApBsq := invsqrtApBsq * invApBsq
  let inv5sqrtApBsq := inv3sqrtApBsq * invApBsq
  let inv7sqrtApBsq := inv5sqrtApBsq * invApBsq
  let invA := 1 / A
  { v_A := -3 * invA * (invA * invA * invA
      - B * (0.3125 * inv7sqrtApBsq + invA * (0.375 * inv5sqrtApBsq + invA * (0.5 * inv3sqrtApBsq + invA * invsqrtApBsq))))
    v_B := -1.875 * inv7sqrtApBsq
    v := invA * (invA * invA - B * (0.375 * inv5sqrtApBsq + invA * (0.5 * inv3sqrtApBsq + invA * invsqrtApBsq))) }

/-- Line 366: `sMax`. -/
def sMax : ℝ := 8.572844

open Classical in
/-- Lines 364-378: rescaled `s2` and its derivative. -/
def rescale (sIn2 : ℝ) : ℝ × ℝ :=
  if sIn2 > 225 then (sMax * sMax, 0)
  else if sIn2 > 1 then
    let sIn := Real.sqrt sIn2
    let expTerm := Real.exp (sIn - sMax)
    let s := sIn - Real.log (1 + expTerm)
    let s_sIn := 1 / (1 + expTerm)
    (s * s, s * s_sIn / sIn)
  else (sIn2, 1)

/-- Lines 385-397: the function `h` and its derivative with respect to `s2`. -/
def holeH (s2 : ℝ) : ℝ × ℝ :=
  let H_a1 := 0.00979681
  let H_a2 := 0.0410834
  let H_a3 := 0.187440
  let H_a4 := 0.00120824
  let H_a5 := 0.0347188
  let s := Real.sqrt s2
  let hNum := s2 * s2 * (H_a1 + s2 * H_a2)
  let hNum_s2 := s2 * (2 * H_a1 + s2 * (3 * H_a2))
  let hDenInv := 1 / (1 + s2 * s2 * (H_a3 + s * H_a4 + s2 * H_a5))
  let hDen_s2 := s2 * (2 * H_a3 + s * (2.5 * H_a4) + s2 * (3 * H_a5))
  (hNum * hDenInv, (hNum_s2 - hNum * hDenInv * hDen_s2) * hDenInv)

/-- Lines 380-384: parameters of the hole. -/
def hA : ℝ := 1.0161144
def hB : ℝ := -0.37170836
def hC : ℝ := -0.077215461
def hD : ℝ := 0.57786348

/-- Lines 398-401: the function `f` and its derivative. -/
def holeF (s2 : ℝ) : ℝ × ℝ := (hC - 0.5 * (holeH s2).1 - (1 / 27) * s2, -0.5 * (holeH s2).2 - (1 / 27))

open Classical in
/-- Lines 402-412: the function `g`, and its derivatives with respect to `h` and `f`. `gErfcArg` is zero when `h` is zero: the
derivative of `gExpErfcTerm` then divides by zero. -/
def holeG (h f : ℝ) : ℝ × Option ℝ × ℝ :=
  let Dph := hD + h
  let sqrtDph := Real.sqrt Dph
  let gExpArg_h := 2.25 / hA
  let gExpArg := gExpArg_h * h
  let gErfcArg := Real.sqrt gExpArg
  let gExpErfcTerm := Real.exp gExpArg * Smear.erfc gErfcArg
  let gExpErfcTerm_h : Option ℝ := if gErfcArg = 0 then none else some ((gExpErfcTerm - (1 / Real.sqrt Real.pi) / gErfcArg) * gExpArg_h)
  let g := -Dph * (0.2 * f + Dph * ((4 / 15) * hB + Dph * ((8 / 15) * hA
    + sqrtDph * (0.8 * Real.sqrt Real.pi) * (Real.sqrt hA * gExpErfcTerm - 1))))
  let g_h := gExpErfcTerm_h.map fun gE => -(0.2 * f + Dph * ((8 / 15) * hB + Dph * (1.6 * hA
    + sqrtDph * (0.8 * Real.sqrt Real.pi) * (Real.sqrt hA * (3.5 * gExpErfcTerm + Dph * gE) - 3.5))))
  let g_f := -Dph * 0.2
  (g, g_h, g_f)

/-- Line 417: `erfcArgPrefac`. -/
def erfcArgPrefac : ℝ := 0.11 * (2 / (9 * Real.pi)) ^ (1 / 3 : ℝ)

/-- Lines 418-440: the hole integral for given `h`, `f`, `g` and `erfcArg`: value, and derivatives with respect to each of them. -/
def holeI (h f g erfcArg : ℝ) : ℝ × ℝ × ℝ × ℝ × ℝ :=
  let a1 := -0.000205484
  let b1 := 0.006601306
  let a2 := -0.109465240
  let b2 := 0.259931140
  let a3 := -0.064078780
  let b3 := 0.520352224
  let a4 := -0.008181735
  let b4 := 0.118551043
  let a5 := -0.000110666
  let b5 := 0.046003777
  let fit1 := integral1 (b1 + h) erfcArg
  let fit2 := integral1 (b2 + h) erfcArg
  let fit3 := integral2 (b3 + h) erfcArg
  let fit4 := integral2 (b4 + h) erfcArg
  let fit5 := integral3 (b5 + h) erfcArg
  let term1 := integral1 (hD + h) erfcArg
  let term2 := integral3 (hD + h) erfcArg
  let term3 := integral5 (hD + h) erfcArg
  (a1 * fit1.v + a2 * fit2.v + a3 * fit3.v + a4 * fit4.v + a5 * fit5.v + (hB * term1.v + f * term2.v + g * term3.v),
   a1 * fit1.v_A + a2 * fit2.v_A + a3 * fit3.v_A + a4 * fit4.v_A + a5 * fit5.v_A + (hB * term1.v_A + f * term2.v_A + g * term3.v_A),
   term2.v, term3.v,
   a1 * fit1.v_B + a2 * fit2.v_B + a3 * fit3.v_B + a4 * fit4.v_B + a5 * fit5.v_B + (hB * term1.v_B + f * term2.v_B + g * term3.v_B))

/-- Lines 358-445 `GGA_eval<GGA_X_wPBE_SR>`; the two sums in `I_s2` (lines 432, 439) are written with the common factor `h_s2`. -/
def wpbeExchange (rs sIn2 : ℝ) : X2 :=
  let sl := slaterExchange rs
  let s2 := (rescale sIn2).1
  let s2_sIn2 := (rescale sIn2).2
  let h := holeH s2
  let f := holeF s2
  let g := holeG h.1 f.1
  let erfcArg := erfcArgPrefac * rs
  let I := holeI h.1 f.1 g.1 erfcArg
  let g_s2 := g.2.1.map fun g_h => g_h * h.2 + g.2.2 * f.2
  let I_s2 := g_s2.map fun g_s2 => f.2 * I.2.2.1 + g_s2 * I.2.2.2.1 + I.2.1 * h.2
  { e_rs := (-8 / 9) * (sl.e_rs * I.1 + sl.e * I.2.2.2.2 * erfcArgPrefac)
    e_s2 := I_s2.map fun I_s2 => (-8 / 9) * sl.e * I_s2 * s2_sIn2
    e := (-8 / 9) * sl.e * I.1 }

/-! ### Kinetic energy -/

/-- Lines 630-637 `TFKinetic`. -/
def tfKinetic (rs : ℝ) : V1 :=
  let rsInv := 1 / rs
  let KEprefac := 9 / 20 * (1.5 * Real.pi * Real.pi) ^ (1 / 3 : ℝ)
  let e := KEprefac * rsInv ^ 2
  { e := e, e_rs := -2 * e * rsInv }

/-- Lines 640-653 `GGA_eval<GGA_KE_VW>`. -/
def vwKinetic (rs s2 : ℝ) : X2 :=
  let lambda := 1
  let rsInv := 1 / rs
  let prefac := lambda * 3 / 4 * (1.5 * Real.pi * Real.pi) ^ (1 / 3 : ℝ)
  let e_s2 := prefac * rsInv ^ 2
  let e := e_s2 * s2
  { e_s2 := some e_s2, e_rs := -2 * e * rsInv, e := e }

/-- Lines 656-671 `GGA_eval<GGA_KE_PW91>`. -/
def pw91Kinetic (rs s2 : ℝ) : X2 :=
  let tf := tfKinetic rs
  let F := pw91Enhancement 0.093907 76.320 0.26608 0.0809615 100 0.57767e-4 s2
  { e_rs := tf.e_rs * F.1, e_s2 := some (tf.e * F.2), e := tf.e * F.1 }

/-! ### Correlation -/

/-- Value and derivatives of `PW91_H0`. -/
structure H4 where
  H : ℝ
  H_beta : ℝ
  H_g3 : ℝ
  H_t2 : ℝ
  H_ec : ℝ

/-- Lines 501-532 `PW91_H0`. -/
def pw91H0 (gamma beta g3 t2 ecUnif : ℝ) : H4 :=
  let betaByGamma := beta / gamma
  let expArg := ecUnif / (gamma * g3)
  let expTerm := Real.exp (-expArg)
  let A_betaByGamma := 1 / (expTerm - 1)
  let A := betaByGamma * A_betaByGamma
  let A_expArg := A * A_betaByGamma * expTerm
  let A_ecUnif := A_expArg / (gamma * g3)
  let A_g3 := -A_expArg * expArg / g3
  let At2 := A * t2
  let num := 1 + At2
  let num_At2 := 1
  let den := 1 + At2 * (1 + At2)
  let den_At2 := 1 + 2 * At2
  let frac := num / den
  let frac_At2 := (num_At2 * den - num * den_At2) / (den * den)
  let logArg := 1 + betaByGamma * t2 * frac
  let logTerm := Real.log logArg
  let logTerm_betaByGamma := t2 * frac / logArg
  let logTerm_t2 := betaByGamma * (frac + t2 * A * frac_At2) / logArg
  let logTerm_A := betaByGamma * t2 * t2 * frac_At2 / logArg
  let H0_A := gamma * g3 * logTerm_A
  { H_beta := (gamma * g3 * logTerm_betaByGamma + H0_A * A_betaByGamma) / gamma
    H_g3 := gamma * logTerm + H0_A * A_g3
    H_t2 := gamma * g3 * logTerm_t2
    H_ec := H0_A * A_ecUnif
    H := gamma * g3 * logTerm }

/-- Line 548: `gamma`. -/
def pbeGamma : ℝ := (1 - Real.log 2) / (Real.pi * Real.pi)

/-- Lines 537-557 `GGA_PBE_correlation`. -/
def pbeCorrelation (beta beta_rs rs zeta g t2 : ℝ) : C4 :=
  let ec := LDA.eval .pwPrec rs zeta
  let g2 := g * g
  let g3 := g * g2
  let H := pw91H0 pbeGamma beta g3 t2 ec.e
  { e_rs := ec.e_rs + H.H_ec * ec.e_rs + H.H_beta * beta_rs
    e_zeta := ec.e_zeta + H.H_ec * ec.e_zeta
    e_g := H.H_g3 * (3 * g2)
    e_t2 := H.H_t2
    e := ec.e + H.H }

/-- Line 598: `nu`. -/
def pw91Nu : ℝ := (16 / Real.pi) * (3 * Real.pi * Real.pi) ^ (1 / 3 : ℝ)

/-- Line 603: `sigma`. -/
def pw91Sigma : ℝ := 100 * (16 / (3 * Real.pi * Real.pi)) ^ (2 / 3 : ℝ)

/-- Lines 576-590: the Rasolt-Geldart function and its derivative. -/
def pw91Cxc (rs : ℝ) : ℝ × ℝ :=
  let Cxc0 := 2.568e-3
  let aCxc := 2.3266e-2
  let bCxc := 7.389e-6
  let numCxc := Cxc0 + rs * (aCxc + rs * bCxc)
  let numCxc_rs := aCxc + rs * (2 * bCxc)
  let cCxc := 8.723
  let dCxc := 0.472
  let denCxc := 1 + rs * (cCxc + rs * (dCxc + rs * (1e4 * bCxc)))
  let denCxc_rs := cCxc + rs * (2 * dCxc + rs * (3 * 1e4 * bCxc))
  (numCxc / denCxc, (numCxc_rs * denCxc - numCxc * denCxc_rs) / (denCxc * denCxc))

/-- Line 613: `beta`. -/
def pw91Beta : ℝ := pw91Nu * (2.568e-3 - (-1.667e-3))

/-- Lines 572-625 `GGA_eval<GGA_C_PW91>`. -/
def pw91Correlation (rs zeta g t2 : ℝ) : C4 :=
  let Cxc0 := 2.568e-3
  let Cxc := (pw91Cxc rs).1
  let Cxc_rs := (pw91Cxc rs).2
  let ec := LDA.eval .pw rs zeta
  let nu := pw91Nu
  let Cx := -1.667e-3
  let nuCdiff := nu * (Cxc - Cxc0 - (3 / 7) * Cx)
  let nuCdiff_rs := nu * Cxc_rs
  let sigma := pw91Sigma
  let g2 := g * g
  let g3 := g * g2
  let g4 := g2 * g2
  let expCutoff := Real.exp (-sigma * g4 * rs * t2)
  let H1 := nuCdiff * g3 * t2 * expCutoff
  let H1_rs := nuCdiff_rs * g3 * t2 * expCutoff - (sigma * g4 * t2) * H1
  let H1_g := nuCdiff * (3 * g2) * t2 * expCutoff - (sigma * 4 * g3 * rs * t2) * H1
  let H1_t2 := nuCdiff * g3 * expCutoff - (sigma * g4 * rs) * H1
  let beta := pw91Beta
  let alpha := 0.09
  let gamma := (beta * beta) / (2 * alpha)
  let H0 := pw91H0 gamma beta g3 t2 ec.e
  { e_rs := ec.e_rs + H1_rs + H0.H_ec * ec.e_rs
    e_zeta := ec.e_zeta + H0.H_ec * ec.e_zeta
    e_g := H1_g + H0.H_g3 * (3 * g2)
    e_t2 := H1_t2 + H0.H_t2
    e := ec.e + H1 + H0.H }

/-! ### Variants -/

/-- Functionals evaluated for each spin on its own (lines 30-42, 110-124). -/
inductive XVar
  | pbe | pbesol | pw91 | wpbe | vw | pw91k
  deriving DecidableEq

/-- Functionals evaluated from both spins together. -/
inductive CVar
  | pbe | pbesol | pw91
  deriving DecidableEq

/-- `GGA_Variant`, lines 30-42. -/
inductive Variant
  | x (v : XVar) | c (v : CVar) | gllbsc | lb94
  deriving DecidableEq

/-- Lines 249-256, 281, 358, 640, 656: the specialisations of `GGA_eval` with four arguments. -/
def evalX : XVar → ℝ → ℝ → X2
  | .pbe => pbeExchange 0.804 0.2195149727645171
  | .pbesol => pbeExchange 0.804 (10 / 81)
  | .pw91 => pw91Exchange
  | .wpbe => wpbeExchange
  | .vw => vwKinetic
  | .pw91k => pw91Kinetic

/-- Lines 560-569, 572: the specialisations of `GGA_eval` with eight arguments. -/
def evalC : CVar → ℝ → ℝ → ℝ → ℝ → C4
  | .pbe => pbeCorrelation 0.06672455060314922 0
  | .pbesol => pbeCorrelation 0.046 0
  | .pw91 => pw91Correlation

/-- Lines 84-91 `hasEnergy`. -/
def hasEnergy : Variant → Bool
  | .gllbsc => false
  | _ => true

/-- What is added to `E`, `E_n[s]` and `E_sigma[2*s]` in one turn of a loop over spins, or for `nCount=1`. -/
structure Out1 where
  E : ℝ
  E_n : Option ℝ
  E_sigma : Option ℝ

/-- What is added to `E`, `E_n[0..1]` and `E_sigma[0..2]` for `nCount=2`. -/
structure Out2 where
  E : ℝ
  E_n0 : Option ℝ
  E_n1 : Option ℝ
  E_s0 : Option ℝ
  E_s1 : Option ℝ
  E_s2 : Option ℝ

/-- Lines 157, 461: `s2_sigma`. -/
def s2Sigma (nCount ns : ℝ) : ℝ := ns ^ (-8 / 3 : ℝ) * ((0.25 * nCount * nCount) * (3 * Real.pi * Real.pi) ^ (-2 / 3 : ℝ))

open Classical in
/-- Lines 147-172 `GGA_calc<variant,true,nCount>::compute`: one turn of the loop. -/
def xTurn (v : XVar) (nCount scaleFac n sigma : ℝ) : Out1 :=
  let ns := n * nCount
  if ns < nCutoff then ⟨0, some 0, some 0⟩ else
  let rs := rsOf ns
  let s2_sigma := s2Sigma nCount ns
  let s2 := s2_sigma * sigma
  let r := evalX v rs s2
  { E_n := r.e_s2.map fun e_s2 => scaleFac * (n * (-(r.e_rs * rs + 8 * e_s2 * s2) / (3 * n)) + r.e)
    E_sigma := r.e_s2.map fun e_s2 => scaleFac * (n * (e_s2 * s2_sigma))
    E := scaleFac * (n * r.e) }

open Classical in
/-- Lines 450-470 `GGA_calc<GGA_X_GLLBsc,true,nCount>::compute`: one turn of the loop. -/
def gllbTurn (nCount scaleFac n sigma : ℝ) : Out1 :=
  let ns := n * nCount
  if ns < nCutoff then ⟨0, some 0, some 0⟩ else
  let rs := rsOf ns
  let s2 := s2Sigma nCount ns * sigma
  let r := evalX .pbesol rs s2
  { E_n := some (scaleFac * (2 * r.e)), E_sigma := some 0, E := scaleFac * (n * r.e) }

open Classical in
/-- Lines 474-492 `GGA_calc<GGA_X_LB94,true,nCount>::compute`: one turn of the loop. -/
def lb94Turn (nCount scaleFac n sigma : ℝ) : Out1 :=
  let ns := n * nCount
  if ns < nCutoff then ⟨0, some 0, some 0⟩ else
  let nsCbrt := ns ^ (1 / 3 : ℝ)
  let x := nCount * Real.sqrt sigma / (nsCbrt * ns)
  let beta := 0.05
  { E_n := some (scaleFac * (-beta * nsCbrt * x * x / (1 + 3 * beta * x * Real.arsinh x))), E_sigma := some 0, E := 0 }

/-- Line 189: `g(zeta)`. -/
def gOf (zeta : ℝ) : ℝ := 0.5 * ((1 + zeta) ^ (2 / 3 : ℝ) + (1 - zeta) ^ (2 / 3 : ℝ))

open Classical in
/-- Lines 202-204: `g_zeta`. -/
def gZeta (zeta : ℝ) : ℝ :=
  (1 / 3) * ((if 1 + zeta > nCutoff then (1 + zeta) ^ (-1 / 3 : ℝ) else 0) - (if 1 - zeta > nCutoff then (1 - zeta) ^ (-1 / 3 : ℝ) else 0))

/-- Line 190: `t2_sigma`. -/
def t2Sigma (nTot g : ℝ) : ℝ := ((Real.pi / 3) ^ (1 / 3 : ℝ) / 16) * nTot ^ (-7 / 3 : ℝ) / (g * g)

open Classical in
/-- Lines 178-217 `GGA_calc<variant,false,nCount>::compute` for given total density, polarisation and squared gradient of the total density: what is
added to `E`, `E_n[0]`, `E_n[1]` and `E_sigma[0]`. -/
def cPoint (v : CVar) (scaleFac nTot zeta sigma : ℝ) : ℝ × ℝ × ℝ × ℝ :=
  if nTot < nCutoff then (0, 0, 0, 0) else
  let rs := rsOf nTot
  let g := gOf zeta
  let t2_sigma := t2Sigma nTot g
  let t2 := t2_sigma * sigma
  let r := evalC v rs zeta g t2
  let e_nTot := -(r.e_rs * rs + 7 * r.e_t2 * t2) / (3 * nTot)
  let e_sigma := r.e_t2 * t2_sigma
  let e_zeta := r.e_zeta + (r.e_g - 2 * r.e_t2 * t2 / g) * gZeta zeta
  let E_nTot := r.e + nTot * e_nTot
  (scaleFac * (nTot * r.e), scaleFac * (E_nTot - e_zeta * (zeta - 1)), scaleFac * (E_nTot - e_zeta * (zeta + 1)),
    scaleFac * (nTot * e_sigma))

/-- `GGA_calc<variant,spinScaling,1>::compute` at one point. -/
def compute1 (v : Variant) (scaleFac n sigma : ℝ) : Out1 :=
  match v with
  | .x v => xTurn v 1 scaleFac n sigma
  | .gllbsc => gllbTurn 1 scaleFac n sigma
  | .lb94 => lb94Turn 1 scaleFac n sigma
  | .c v =>
    let r := cPoint v scaleFac n 0 sigma
    ⟨r.1, some r.2.1, some r.2.2.2⟩

/-- The two turns of a loop over spins together. -/
def both (a b : Out1) : Out2 := ⟨a.E + b.E, a.E_n, b.E_n, a.E_sigma, some 0, b.E_sigma⟩

/-- `GGA_calc<variant,spinScaling,2>::compute` at one point. -/
def compute2 (v : Variant) (scaleFac n0 n1 s0 s1 s2 : ℝ) : Out2 :=
  match v with
  | .x v => both (xTurn v 2 scaleFac n0 s0) (xTurn v 2 scaleFac n1 s2)
  | .gllbsc => both (gllbTurn 2 scaleFac n0 s0) (gllbTurn 2 scaleFac n1 s2)
  | .lb94 => both (lb94Turn 2 scaleFac n0 s0) (lb94Turn 2 scaleFac n1 s2)
  | .c v =>
    let r := cPoint v scaleFac (n0 + n1) ((n0 - n1) / (n0 + n1)) (s0 + 2 * s1 + s2)
    ⟨r.1, some r.2.1, some r.2.2.1, some r.2.2.2, some (r.2.2.2 * 2), some r.2.2.2⟩

end
end Jdftx.GGA
