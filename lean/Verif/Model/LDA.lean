import Mathlib.Analysis.SpecialFunctions.Pow.Real
import Mathlib.Analysis.SpecialFunctions.Trigonometric.Arctan
import Mathlib.Analysis.Real.Pi.Bounds

/-!
# Model of the LDA functionals (jdftx/electronic/ExCorr_internal.h, ExCorr_internal_LDA.h)

Exact real arithmetic: `pow(x, 1./3)` is the real power with exponent `1/3`, and decimal constants are the rational numbers
they denote. The arrays hold one value per grid point and every point is treated on its own (threadedLoop, see C02), so the
model gives what the code adds to `E[i]` and `E_n[s][i]` at one point. All derivative pointers are taken to be non-null.
-/
namespace Jdftx.LDA
noncomputable section

/-- ExCorr_internal.h:29. -/
def nCutoff : ℝ := 1e-16

/-- Value and derivative with respect to `rs`, the result of the functors for one spin polarisation. -/
structure V1 where
  e : ℝ
  e_rs : ℝ

/-- Value and derivatives with respect to `rs` and `zeta`. -/
structure V2 where
  e : ℝ
  e_rs : ℝ
  e_zeta : ℝ

/-- ExCorr_internal.h:129-135 `spinInterpolation`: the value. -/
def spinF (zeta : ℝ) : ℝ :=
  let scale := 1 / ((2 : ℝ) ^ (4 / 3 : ℝ) - 2)
  scale * ((1 + zeta) * (1 + zeta) ^ (1 / 3 : ℝ) + (1 - zeta) * (1 - zeta) ^ (1 / 3 : ℝ) - 2)

/-- ExCorr_internal.h:129-135 `spinInterpolation`: `f_zeta`. -/
def spinF_zeta (zeta : ℝ) : ℝ :=
  let scale := 1 / ((2 : ℝ) ^ (4 / 3 : ℝ) - 2)
  scale * ((1 + zeta) ^ (1 / 3 : ℝ) - (1 - zeta) ^ (1 / 3 : ℝ)) * (4 / 3)

open Classical in
/-- ExCorr_internal.h:138-154 `spinInterpolate` with paramagnetic and ferromagnetic functors. -/
def spinInterpolate2 (rs zeta : ℝ) (para ferro : ℝ → V1) : V2 :=
  if zeta = 0 then ⟨(para rs).e, (para rs).e_rs, 0⟩
  else
    let f := spinF zeta
    let f_zeta := spinF_zeta zeta
    { e_rs := (para rs).e_rs + f * ((ferro rs).e_rs - (para rs).e_rs)
      e_zeta := f_zeta * ((ferro rs).e - (para rs).e)
      e := (para rs).e + f * ((ferro rs).e - (para rs).e) }

/-- ExCorr_internal.h:162: the default `fDblPrime0`. -/
def fDblPrime0 : ℝ := 4 / (9 * ((2 : ℝ) ^ (1 / 3 : ℝ) - 1))

open Classical in
/-- ExCorr_internal.h:159-184 `spinInterpolate` with a spin-stiffness functor. -/
def spinInterpolate3 (rs zeta : ℝ) (para ferro stiff : ℝ → V1) (fDbl : ℝ) : V2 :=
  if zeta = 0 then ⟨(para rs).e, (para rs).e_rs, 0⟩
  else
    let f := spinF zeta
    let f_zeta := spinF_zeta zeta
    let zeta2 := zeta * zeta
    let zeta3 := zeta2 * zeta
    let zeta4 := zeta2 * zeta2
    let scale := -1 / fDbl
    let w1 := zeta4 * f
    let w1_zeta := 4 * zeta3 * f + zeta4 * f_zeta
    let w2 := scale * ((1 - zeta4) * f)
    let w2_zeta := scale * (-4 * zeta3 * f + (1 - zeta4) * f_zeta)
    { e_rs := (para rs).e_rs + w1 * ((ferro rs).e_rs - (para rs).e_rs) + w2 * (stiff rs).e_rs
      e_zeta := w1_zeta * ((ferro rs).e - (para rs).e) + w2_zeta * (stiff rs).e
      e := (para rs).e + w1 * ((ferro rs).e - (para rs).e) + w2 * (stiff rs).e }

open Classical in
/-- ExCorr_internal_LDA.h:174-193 `LDA_eval_C_PZ<para>`. -/
def pz (para : Bool) (rs : ℝ) : V1 :=
  if rs < 1 then
    let a : ℝ := if para then 0.0311 else 0.01555
    let b : ℝ := if para then -0.0480 else -0.0269
    let c : ℝ := if para then 0.0020 else 0.0007
    let d : ℝ := if para then -0.0116 else -0.0048
    { e_rs := a / rs + c * (1 + Real.log rs) + d
      e := (a + c * rs) * Real.log rs + b + d * rs }
  else
    let gamma : ℝ := if para then -0.1423 else -0.0843
    let beta1 : ℝ := if para then 1.0529 else 1.3981
    let beta2 : ℝ := if para then 0.3334 else 0.2611
    let denInv := 1 / (1 + beta1 * Real.sqrt rs + beta2 * rs)
    let denPrime := beta1 / (2 * Real.sqrt rs) + beta2
    { e_rs := gamma * (-(denInv * denInv)) * denPrime
      e := gamma * denInv }

/-- The choice `(spinID==0) ? x : ((spinID==1) ? y : z)`. -/
def pick (spinID : Nat) (x y z : ℝ) : ℝ := if spinID = 0 then x else if spinID = 1 then y else z

/-- ExCorr_internal_LDA.h:204-227 `LDA_eval_C_PW<spinID,prec>`. -/
def pw (spinID : Nat) (prec : Bool) (rs : ℝ) : V1 :=
  let A := if prec then pick spinID 0.0310907 0.01554535 0.0168869 else pick spinID 0.031091 0.015545 0.016887
  let alpha := pick spinID 0.21370 0.20548 0.11125
  let beta1 := pick spinID 7.5957 14.1189 10.357
  let beta2 := pick spinID 3.5876 6.1977 3.6231
  let beta3 := pick spinID 1.6382 3.3662 0.88026
  let beta4 := pick spinID 0.49294 0.62517 0.49671
  let x := Real.sqrt rs
  let den := (2 * A) * x * (beta1 + x * (beta2 + x * (beta3 + x * beta4)))
  let den_x := (2 * A) * (beta1 + x * (2 * beta2 + x * (3 * beta3 + x * (4 * beta4))))
  let den_rs := den_x * 0.5 / x
  let logTerm := Real.log (1 + 1 / den)
  let logTerm_rs := -den_rs / (den * (1 + den))
  { e_rs := -(2 * A) * (alpha * logTerm + (1 + alpha * rs) * logTerm_rs)
    e := -(2 * A) * (1 + alpha * rs) * logTerm }

/-- ExCorr_internal_LDA.h:245-267 `LDA_eval_C_VWN<spinID>`. -/
def vwn (spinID : Nat) (rs : ℝ) : V1 :=
  let A := pick spinID 0.0310907 0.01554535 (1 / (6 * Real.pi * Real.pi))
  let b := pick spinID 3.72744 7.06042 1.13107
  let c := pick spinID 12.9352 18.0578 13.0045
  let x0 := pick spinID (-0.10498) (-0.32500) (-0.0047584)
  let X0 := c + x0 * (b + x0)
  let Q := Real.sqrt (4 * c - b * b)
  let x := Real.sqrt rs
  let X := c + x * (b + x)
  let X_x := 2 * x + b
  let atanTerm := (2 / Q) * Real.arctan (Q / X_x)
  let atanTerm_x := -4 / (Q * Q + X_x * X_x)
  let logTerm1 := Real.log (x * x / X)
  let logTerm1_x := 2 / x - X_x / X
  let logTerm2 := Real.log ((x - x0) * (x - x0) / X)
  let logTerm2_x := 2 / (x - x0) - X_x / X
  let e := A * (logTerm1 + b * (atanTerm - (x0 / X0) * (logTerm2 + (b + 2 * x0) * atanTerm)))
  let e_x := A * (logTerm1_x + b * (atanTerm_x - (x0 / X0) * (logTerm2_x + (b + 2 * x0) * atanTerm_x)))
  { e_rs := e_x * 0.5 / x
    e := e }

/-- ExCorr_internal_LDA.h:277-306 `LDA_eval<LDA_XC_Teter>`. -/
def teter (rs zeta : ℝ) : V2 :=
  let pa0 := 0.4581652932831429; let da0 := 0.119086804055547
  let pa1 := 2.217058676663745; let da1 := 0.6157402568883345
  let pa2 := 0.7405551735357053; let da2 := 0.1574201515892867
  let pa3 := 0.01968227878617998; let da3 := 0.003532336663397157
  let pb2 := 4.504130959426697; let db2 := 0.2673612973836267
  let pb3 := 1.110667363742916; let db3 := 0.2052004607777787
  let pb4 := 0.02359291751427506; let db4 := 0.004200005045691381
  let f := spinF zeta
  let f_zeta := spinF_zeta zeta
  let a0 := pa0 + f * da0
  let a1 := pa1 + f * da1
  let a2 := pa2 + f * da2
  let a3 := pa3 + f * da3
  let b2 := pb2 + f * db2
  let b3 := pb3 + f * db3
  let b4 := pb4 + f * db4
  let num := a0 + rs * (a1 + rs * (a2 + rs * a3))
  let den := rs * (1 + rs * (b2 + rs * (b3 + rs * b4)))
  let num_rs := a1 + rs * (2 * a2 + rs * (3 * a3))
  let den_rs := 1 + rs * (2 * b2 + rs * (3 * b3 + rs * (4 * b4)))
  let num_f := da0 + rs * (da1 + rs * (da2 + rs * da3))
  let den_f := rs * rs * (db2 + rs * (db3 + rs * db4))
  { e_rs := (num * den_rs - den * num_rs) / (den * den)
    e_zeta := (num * den_f - den * num_f) * f_zeta / (den * den)
    e := -num / den }

/-- The variants that are evaluated from `rs` and `zeta` (ExCorr_internal_LDA.h:30-39). -/
inductive Corr
  | pz | pw | pwPrec | vwn | teter
  deriving DecidableEq

/-- ExCorr_internal_LDA.h:196-199, 229-240, 269-273, 277: the specialisations of `LDA_eval`. -/
def eval (c : Corr) (rs zeta : ℝ) : V2 :=
  match c with
  | .pz => spinInterpolate2 rs zeta (pz true) (pz false)
  | .pw => spinInterpolate3 rs zeta (pw 0 false) (pw 1 false) (pw 2 false) 1.709921
  | .pwPrec => spinInterpolate3 rs zeta (pw 0 true) (pw 1 true) (pw 2 true) fDblPrime0
  | .vwn => spinInterpolate3 rs zeta (vwn 0) (vwn 1) (vwn 2) fDblPrime0
  | .teter => teter rs zeta

/-- `LDA_Variant`, ExCorr_internal_LDA.h:30-39. -/
inductive Variant
  | slater | tf | corr (c : Corr)

/-- What is added at one point without spin: to `E[i]` and to `E_n[0][i]`. -/
structure Out1 where
  E : ℝ
  E_n : ℝ

/-- What is added at one point with spin: to `E[i]`, `E_n[0][i]` and `E_n[1][i]`. -/
structure Out2 where
  E : ℝ
  E_up : ℝ
  E_dn : ℝ

/-- ExCorr_internal_LDA.h:121. -/
def rsOf (nTot : ℝ) : ℝ := ((4 * Real.pi / 3) * nTot) ^ (-1 / 3 : ℝ)

open Classical in
/-- ExCorr_internal_LDA.h:115-136 `LDA_calc<variant,1>::compute`. -/
def corr1 (c : Corr) (scaleFac n : ℝ) : Out1 :=
  let nTot := n
  if nTot < nCutoff then ⟨0, 0⟩ else
  let rs := rsOf nTot
  let zeta : ℝ := 0
  let r := eval c rs zeta
  let e_nTot := -r.e_rs * rs / (3 * nTot)
  let E_nTot := r.e + nTot * e_nTot
  { E_n := scaleFac * (E_nTot - r.e_zeta * (zeta - 1))
    E := scaleFac * (nTot * r.e) }

open Classical in
/-- ExCorr_internal_LDA.h:115-136 `LDA_calc<variant,2>::compute`. -/
def corr2 (c : Corr) (scaleFac n0 n1 : ℝ) : Out2 :=
  let nTot := n0 + n1
  if nTot < nCutoff then ⟨0, 0, 0⟩ else
  let rs := rsOf nTot
  let zeta := (n0 - n1) / nTot
  let r := eval c rs zeta
  let e_nTot := -r.e_rs * rs / (3 * nTot)
  let E_nTot := r.e + nTot * e_nTot
  { E_up := scaleFac * (E_nTot - r.e_zeta * (zeta - 1))
    E_dn := scaleFac * (E_nTot - r.e_zeta * (zeta + 1))
    E := scaleFac * (nTot * r.e) }

/-- ExCorr_internal_LDA.h:143-149: one turn of the loop over spins of the Thomas-Fermi functional. -/
def tfTurn (nCount : ℝ) (scaleFac n : ℝ) : Out1 :=
  let KEprefac := (0.3 / nCount) * (3 * Real.pi * Real.pi) ^ (2 / 3 : ℝ)
  let ns := n * nCount
  let nsTo23 := ns ^ (2 / 3 : ℝ)
  { E := scaleFac * (KEprefac * nsTo23 * ns)
    E_n := scaleFac * ((nCount * KEprefac * 5 / 3) * nsTo23) }

/-- ExCorr_internal_LDA.h:159-166: one turn of the loop over spins of Slater exchange. -/
def slaterTurn (nCount : ℝ) (scaleFac n : ℝ) : Out1 :=
  let Xprefac := (-0.75 / nCount) * (3 / Real.pi) ^ (1 / 3 : ℝ)
  let ns := n * nCount
  let nsCbrt := ns ^ (1 / 3 : ℝ)
  { E := scaleFac * (Xprefac * nsCbrt * ns)
    E_n := scaleFac * ((nCount * Xprefac * 4 / 3) * nsCbrt) }

/-- `LDA_calc<variant,1>::compute`. -/
def compute1 (v : Variant) (scaleFac n : ℝ) : Out1 :=
  match v with
  | .slater => slaterTurn 1 scaleFac n
  | .tf => tfTurn 1 scaleFac n
  | .corr c => corr1 c scaleFac n

/-- `LDA_calc<variant,2>::compute`. -/
def compute2 (v : Variant) (scaleFac n0 n1 : ℝ) : Out2 :=
  match v with
  | .slater => ⟨(slaterTurn 2 scaleFac n0).E + (slaterTurn 2 scaleFac n1).E, (slaterTurn 2 scaleFac n0).E_n, (slaterTurn 2 scaleFac n1).E_n⟩
  | .tf => ⟨(tfTurn 2 scaleFac n0).E + (tfTurn 2 scaleFac n1).E, (tfTurn 2 scaleFac n0).E_n, (tfTurn 2 scaleFac n1).E_n⟩
  | .corr c => corr2 c scaleFac n0 n1

end
end Jdftx.LDA
