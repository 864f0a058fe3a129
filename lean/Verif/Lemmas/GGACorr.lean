import Verif.Lemmas.GGA
import Verif.Props.LDA
import Mathlib.Analysis.MeanInequalitiesPow

/-!
# Lemmas for C87: correlation
-/
namespace Jdftx.GGA
noncomputable section
open Filter Topology
open Jdftx.LDA (V1 V2 nCutoff rsOf)

/-! ### The correlation energy of the uniform gas is negative -/

theorem spinF_range (z : ℝ) (h1 : -1 ≤ z) (h2 : z ≤ 1) : 0 ≤ LDA.spinF z ∧ LDA.spinF z ≤ 1 := by
  rw [LDA.spinF_eq z h1 h2]
  unfold LDA.barthHedin
  have hp := LDA.scale_pos
  constructor
  · refine div_nonneg ?_ hp.le
    have hc : ConvexOn ℝ (Set.Ici 0) fun x : ℝ => x ^ (4 / 3 : ℝ) := convexOn_rpow (by norm_num)
    have h := hc.2 (show (1 + z) ∈ Set.Ici (0 : ℝ) by simp; linarith) (show (1 - z) ∈ Set.Ici (0 : ℝ) by simp; linarith)
      (show (0 : ℝ) ≤ 1 / 2 by norm_num) (show (0 : ℝ) ≤ 1 / 2 by norm_num) (by norm_num)
    have e : (1 / 2 : ℝ) • (1 + z) + (1 / 2 : ℝ) • (1 - z) = 1 := by simp only [smul_eq_mul]; ring
    rw [e] at h
    simp only [Real.one_rpow, smul_eq_mul] at h
    linarith
  · rw [div_le_one hp]
    have := Real.add_rpow_le_rpow_add (p := (4 / 3 : ℝ)) (show 0 ≤ 1 + z by linarith) (show 0 ≤ 1 - z by linarith) (by norm_num)
    rw [show 1 + z + (1 - z) = 2 by ring] at this
    linarith

/-- `log (1 + k y) ≤ k log (1 + y)` for `1 ≤ k`. -/
theorem log_bernoulli (k y : ℝ) (hk : 1 ≤ k) (hy : 0 ≤ y) : Real.log (1 + k * y) ≤ k * Real.log (1 + y) := by
  have h := one_add_mul_self_le_rpow_one_add (s := y) (by linarith) hk
  rw [← Real.log_rpow (by linarith)]
  exact Real.log_le_log (by nlinarith) h

theorem log_ratio (d0 d2 : ℝ) (h0 : 0 < d0) (h2 : 0 < d2) (h : d0 ≤ 3.12 * d2) :
    Real.log (1 + 1 / d2) ≤ 3.12 * Real.log (1 + 1 / d0) := by
  refine le_trans (Real.log_le_log (by positivity) ?_) (log_bernoulli 3.12 (1 / d0) (by norm_num) (by positivity))
  have : 1 / d2 ≤ 3.12 * (1 / d0) := by
    rw [mul_one_div, div_le_div_iff₀ h2 h0]; linarith
  linarith

theorem pw_neg (spinID : Nat) (prec : Bool) (rs : ℝ) (h : 0 < rs) : (LDA.pw spinID prec rs).e < 0 := by
  simp only [LDA.pw, LDA.pick]
  have hs : 0 < Real.sqrt rs := Real.sqrt_pos.2 h
  have key : ∀ A a b1 b2 b3 b4 : ℝ, 0 < A → 0 < a → 0 < b1 → 0 < b2 → 0 < b3 → 0 < b4 →
      -(2 * A) * (1 + a * rs) * Real.log (1 + 1 / (2 * A * Real.sqrt rs * (b1 + Real.sqrt rs * (b2 + Real.sqrt rs * (b3 + Real.sqrt rs * b4))))) < 0 := by
    intro A a b1 b2 b3 b4 hA ha p1 p2 p3 p4
    have hl : 0 < Real.log (1 + 1 / (2 * A * Real.sqrt rs * (b1 + Real.sqrt rs * (b2 + Real.sqrt rs * (b3 + Real.sqrt rs * b4))))) :=
      Real.log_pos (by have : 0 < 1 / (2 * A * Real.sqrt rs * (b1 + Real.sqrt rs * (b2 + Real.sqrt rs * (b3 + Real.sqrt rs * b4)))) := by positivity
                       linarith)
    have : 0 < 2 * A * (1 + a * rs) := by positivity
    nlinarith [mul_pos this hl]
  refine key _ _ _ _ _ _ ?_ ?_ ?_ ?_ ?_ ?_ <;> split_ifs <;> norm_num

/-- The spin stiffness is less than 1.7 times the correlation energy. -/
theorem stiff_lt (prec : Bool) (rs : ℝ) (h : 0 < rs) : -(LDA.pw 2 prec rs).e < 1.7 * -(LDA.pw 0 prec rs).e := by
  simp only [LDA.pw, LDA.pick]
  have hs : 0 < Real.sqrt rs := Real.sqrt_pos.2 h
  norm_num
  generalize Real.sqrt rs = x at *
  have key : ∀ A0 A2 : ℝ, 0.031 < A0 → A0 < 0.0311 → 0.016886 < A2 → A2 < 0.016888 →
      2 * A2 * (1 + 89 / 800 * rs) * Real.log (1 + 1 / (2 * A2 * x * (10357 / 1000 + x * (36231 / 10000 + x * (44013 / 50000 + x * (49671 / 100000))))))
      < 17 / 10 * (2 * A0 * (1 + 2137 / 10000 * rs) * Real.log (1 + 1 / (2 * A0 * x * (75957 / 10000 + x * (8969 / 2500 + x * (8191 / 5000 + x * (24647 / 50000))))))) := by
    intro A0 A2 h1 h2 h3 h4
    have hA0 : 0 < A0 := by linarith
    have hA2 : 0 < A2 := by linarith
    have hr := log_ratio (2 * A0 * x * (75957 / 10000 + x * (8969 / 2500 + x * (8191 / 5000 + x * (24647 / 50000)))))
      (2 * A2 * x * (10357 / 1000 + x * (36231 / 10000 + x * (44013 / 50000 + x * (49671 / 100000))))) (by positivity) (by positivity) (by
        have q : A0 * (75957 / 10000 + x * (8969 / 2500 + x * (8191 / 5000 + x * (24647 / 50000)))) ≤
            3.12 * A2 * (10357 / 1000 + x * (36231 / 10000 + x * (44013 / 50000 + x * (49671 / 100000)))) := by
          have a : A0 * (75957 / 10000 + x * (8969 / 2500 + x * (8191 / 5000 + x * (24647 / 50000)))) ≤
              0.0311 * (75957 / 10000 + x * (8969 / 2500 + x * (8191 / 5000 + x * (24647 / 50000)))) :=
            mul_le_mul_of_nonneg_right h2.le (by positivity)
          have b : 3.12 * 0.016886 * (10357 / 1000 + x * (36231 / 10000 + x * (44013 / 50000 + x * (49671 / 100000)))) ≤
              3.12 * A2 * (10357 / 1000 + x * (36231 / 10000 + x * (44013 / 50000 + x * (49671 / 100000)))) :=
            mul_le_mul_of_nonneg_right (by linarith) (by positivity)
          refine a.trans (le_trans ?_ b)
          norm_num
          nlinarith [mul_nonneg hs.le (sq_nonneg (x - 1)), pow_pos hs 2, pow_pos hs 3]
        nlinarith [mul_le_mul_of_nonneg_left q (show 0 ≤ 2 * x by positivity)])
    have hl : 0 < Real.log (1 + 1 / (2 * A0 * x * (75957 / 10000 + x * (8969 / 2500 + x * (8191 / 5000 + x * (24647 / 50000)))))) :=
      Real.log_pos (by have : 0 < 1 / (2 * A0 * x * (75957 / 10000 + x * (8969 / 2500 + x * (8191 / 5000 + x * (24647 / 50000))))) := by positivity
                       linarith)
    generalize Real.log (1 + 1 / (2 * A0 * x * (75957 / 10000 + x * (8969 / 2500 + x * (8191 / 5000 + x * (24647 / 50000)))))) = l at *
    generalize Real.log (1 + 1 / (2 * A2 * x * (10357 / 1000 + x * (36231 / 10000 + x * (44013 / 50000 + x * (49671 / 100000)))))) = m at *
    have c1 : 2 * A2 * (1 + 89 / 800 * rs) * m ≤ 2 * A2 * (1 + 89 / 800 * rs) * (3.12 * l) := by
      refine mul_le_mul_of_nonneg_left hr (by positivity)
    have c2 : 2 * A2 * (1 + 89 / 800 * rs) * (3.12 * l) ≤ 2 * A2 * (1 + 2137 / 10000 * rs) * (3.12 * l) := by
      refine mul_le_mul_of_nonneg_right (mul_le_mul_of_nonneg_left ?_ (by positivity)) (by positivity)
      linarith
    have c3 : 2 * A2 * (1 + 2137 / 10000 * rs) * (3.12 * l) < 17 / 10 * (2 * A0 * (1 + 2137 / 10000 * rs) * l) := by
      have : A2 * 3.12 < 17 / 10 * A0 := by norm_num; linarith
      have hp : 0 < 2 * (1 + 2137 / 10000 * rs) * l := by positivity
      nlinarith [mul_lt_mul_of_pos_right this hp]
    linarith
  cases prec
  · have := key 0.031091 0.016887 (by norm_num) (by norm_num) (by norm_num) (by norm_num)
    norm_num at this ⊢
    linarith
  · have := key 0.0310907 0.0168869 (by norm_num) (by norm_num) (by norm_num) (by norm_num)
    norm_num at this ⊢
    linarith

theorem fDblPrime0_ge : 1.7 ≤ LDA.fDblPrime0 := by
  unfold LDA.fDblPrime0
  have h1 : (2 : ℝ) ^ (1 / 3 : ℝ) ≤ 1.26 := by
    have : (2 : ℝ) ^ (1 / 3 : ℝ) ≤ ((1.26 : ℝ) ^ (3 : ℝ)) ^ (1 / 3 : ℝ) := Real.rpow_le_rpow (by norm_num) (by norm_num) (by norm_num)
    rwa [← Real.rpow_mul (by norm_num), show (3 : ℝ) * (1 / 3) = 1 by norm_num, Real.rpow_one] at this
  have h2 : 1 < (2 : ℝ) ^ (1 / 3 : ℝ) := Real.one_lt_rpow (by norm_num) (by norm_num)
  rw [le_div_iff₀ (by linarith)]
  norm_num at h1 ⊢
  linarith

theorem interp_neg (prec : Bool) (fDbl rs z : ℝ) (h : 0 < rs) (h1 : -1 ≤ z) (h2 : z ≤ 1) (hf : 1.7 ≤ fDbl) :
    (LDA.spinInterpolate3 rs z (LDA.pw 0 prec) (LDA.pw 1 prec) (LDA.pw 2 prec) fDbl).e < 0 := by
  rw [LDA.spinInterpolate3_eq]
  show _ + _ + _ < 0
  have p0 := pw_neg 0 prec rs h
  have p1 := pw_neg 1 prec rs h
  have p2 := pw_neg 2 prec rs h
  have hst := stiff_lt prec rs h
  obtain ⟨f0, f1⟩ := spinF_range z h1 h2
  have z4 : 0 ≤ z ^ 4 := by positivity
  have z41 : z ^ 4 ≤ 1 := by
    have : z ^ 2 ≤ 1 := by nlinarith
    nlinarith [sq_nonneg z]
  generalize (LDA.pw 0 prec rs).e = P at *
  generalize (LDA.pw 1 prec rs).e = Q at *
  generalize (LDA.pw 2 prec rs).e = S at *
  generalize LDA.spinF z = f at *
  generalize z ^ 4 = y at *
  have hfp : 0 < fDbl := by linarith
  have hS : -1 / fDbl * S < -P := by
    rw [div_mul_eq_mul_div, div_lt_iff₀ hfp]
    nlinarith
  have hS0 : 0 < -1 / fDbl * S := by
    rw [div_mul_eq_mul_div]; exact div_pos (by linarith) hfp
  have e : -1 / fDbl * ((1 - y) * f) * S = (-1 / fDbl * S) * ((1 - y) * f) := by ring
  rw [e]
  generalize -1 / fDbl * S = s at *
  have a1 : s * ((1 - y) * f) ≤ s * (1 - y * f) := mul_le_mul_of_nonneg_left (by nlinarith) hS0.le
  have yf : y * f ≤ 1 := by nlinarith
  rcases eq_or_lt_of_le yf with k | k
  · rw [k] at a1 ⊢; nlinarith
  · have : (s + P) * (1 - y * f) < 0 := mul_neg_of_neg_of_pos (by linarith) (by linarith)
    have : y * f * Q ≤ 0 := mul_nonpos_of_nonneg_of_nonpos (by positivity) p1.le
    nlinarith

theorem ec_neg (c : LDA.Corr) (hc : c = .pw ∨ c = .pwPrec) (rs z : ℝ) (h : 0 < rs) (h1 : -1 ≤ z) (h2 : z ≤ 1) : (LDA.eval c rs z).e < 0 := by
  rcases hc with rfl | rfl
  · exact interp_neg false _ rs z h h1 h2 (by norm_num)
  · exact interp_neg true _ rs z h h1 h2 fDblPrime0_ge

/-! ### The gradient contribution -/

/-- What is needed of the arguments of `pw91H0`. -/
structure HDom (gamma beta g3 t2 ec : ℝ) : Prop where
  gamma : 0 < gamma
  beta : 0 < beta
  g3 : 0 < g3
  t2 : 0 ≤ t2
  ec : ec < 0

theorem exp_gt (gamma beta g3 t2 ec : ℝ) (d : HDom gamma beta g3 t2 ec) : 1 < Real.exp (-(ec / (gamma * g3))) := by
  rw [Real.one_lt_exp_iff, neg_pos]
  exact div_neg_of_neg_of_pos d.ec (mul_pos d.gamma d.g3)

theorem pw91H0_ok (gamma beta g3 t2 ec : ℝ) (dm : HDom gamma beta g3 t2 ec) (a b c : ℝ → ℝ) (a' b' c' : ℝ) (ha0 : a 0 = g3) (hb0 : b 0 = t2)
    (hc0 : c 0 = ec) (ha : HasDerivAt a a' 0) (hb : HasDerivAt b b' 0) (hc : HasDerivAt c c' 0) :
    HasDerivAt (fun t => (pw91H0 gamma beta (a t) (b t) (c t)).H)
      ((pw91H0 gamma beta g3 t2 ec).H_g3 * a' + (pw91H0 gamma beta g3 t2 ec).H_t2 * b' + (pw91H0 gamma beta g3 t2 ec).H_ec * c') 0 := by
  have hx := exp_gt _ _ _ _ _ dm
  obtain ⟨hg, hbe, hg3, ht, hec⟩ := dm
  have hga0 : gamma * a 0 ≠ 0 := by rw [ha0]; positivity
  have hX := (hc.fun_div (ha.const_mul gamma) hga0).fun_neg.exp
  have hX0 : Real.exp (-(c 0 / (gamma * a 0))) - 1 ≠ 0 := by rw [ha0, hc0]; linarith
  have hA := ((hasDerivAt_const (0 : ℝ) (1 : ℝ)).fun_div (hX.sub_const 1) hX0).const_mul (beta / gamma)
  have hAt := hA.fun_mul hb
  have hp : 0 < 1 / (Real.exp (-(ec / (gamma * g3))) - 1) := one_div_pos.2 (by linarith)
  have hden : 0 < 1 + beta / gamma * (1 / (Real.exp (-(ec / (gamma * g3))) - 1)) * t2 * (1 + beta / gamma * (1 / (Real.exp (-(ec / (gamma * g3))) - 1)) * t2) := by
    positivity
  have hD := (hAt.fun_mul (hAt.const_add 1)).const_add 1
  have hF := (hAt.const_add 1).fun_div hD (by rw [ha0, hb0, hc0]; exact hden.ne')
  have hLA := (((hb.const_mul (beta / gamma)).fun_mul hF).const_add 1)
  have hla : 0 < 1 + beta / gamma * t2 * ((1 + beta / gamma * (1 / (Real.exp (-(ec / (gamma * g3))) - 1)) * t2) /
      (1 + beta / gamma * (1 / (Real.exp (-(ec / (gamma * g3))) - 1)) * t2 * (1 + beta / gamma * (1 / (Real.exp (-(ec / (gamma * g3))) - 1)) * t2))) := by
    positivity
  have hL := hLA.log (by rw [ha0, hb0, hc0]; exact hla.ne')
  simp only [pw91H0]
  refine ((ha.const_mul gamma).fun_mul hL).congr_deriv ?_
  simp only [ha0, hb0, hc0]
  clear hL hLA hF hD hAt hA hX hX0
  generalize Real.log _ = L
  generalize Real.exp (-(ec / (gamma * g3))) = X at *
  have hX1 : X - 1 ≠ 0 := by linarith
  generalize hY : 1 / (X - 1) = Y at *
  generalize hbg : beta / gamma = k at *
  have hXY : X = 1 + 1 / Y := by rw [← hY, one_div_one_div]; ring
  generalize hden' : 1 + k * Y * t2 * (1 + k * Y * t2) = den at *
  generalize hfr : (1 + k * Y * t2) / den = fr at *
  generalize hla' : 1 + k * t2 * fr = la at *
  have hYd : (0 * (X - 1) - 1 * (X * -((c' * (gamma * g3) - ec * (gamma * a')) / (gamma * g3) ^ 2))) / (X - 1) ^ 2 =
      Y ^ 2 * X * ((c' * (gamma * g3) - ec * (gamma * a')) / (gamma * g3) ^ 2) := by
    rw [← hY]; field_simp; ring
  rw [hYd]
  field_simp
  ring

/-- The gradient contribution is between zero and what cancels the uniform-gas correlation. -/
theorem pw91H0_range (gamma beta g3 t2 ec : ℝ) (dm : HDom gamma beta g3 t2 ec) :
    0 ≤ (pw91H0 gamma beta g3 t2 ec).H ∧ ec + (pw91H0 gamma beta g3 t2 ec).H < 0 := by
  have hx := exp_gt _ _ _ _ _ dm
  obtain ⟨hg, hbe, hg3, ht, hec⟩ := dm
  simp only [pw91H0]
  have hlog : Real.log (Real.exp (-(ec / (gamma * g3)))) = -(ec / (gamma * g3)) := Real.log_exp _
  generalize Real.exp (-(ec / (gamma * g3))) = X at *
  have hX : 0 < X - 1 := by linarith
  have hk : 0 < beta / gamma := by positivity
  generalize beta / gamma = k at *
  have hA : 0 < k * (1 / (X - 1)) := by positivity
  have hkA : k = k * (1 / (X - 1)) * (X - 1) := by field_simp
  generalize k * (1 / (X - 1)) = A at *
  have hu : 0 ≤ A * t2 := by positivity
  have hden : 0 < 1 + A * t2 * (1 + A * t2) := by positivity
  have e : k * t2 * ((1 + A * t2) / (1 + A * t2 * (1 + A * t2))) = (X - 1) * (A * t2 * (1 + A * t2) / (1 + A * t2 * (1 + A * t2))) := by
    rw [hkA]; ring
  rw [e]
  generalize A * t2 = u at *
  have hfr : u * (1 + u) / (1 + u * (1 + u)) < 1 := by rw [div_lt_one hden]; linarith
  have hfr0 : 0 ≤ u * (1 + u) / (1 + u * (1 + u)) := by positivity
  generalize u * (1 + u) / (1 + u * (1 + u)) = w at *
  have l0 : 0 ≤ Real.log (1 + (X - 1) * w) := Real.log_nonneg (by nlinarith)
  have l1 : Real.log (1 + (X - 1) * w) < Real.log X := Real.log_lt_log (by nlinarith) (by nlinarith)
  rw [hlog] at l1
  refine ⟨by positivity, ?_⟩
  have := mul_lt_mul_of_pos_left l1 (mul_pos hg hg3)
  have e2 : gamma * g3 * -(ec / (gamma * g3)) = -ec := by field_simp
  linarith

theorem pw91H0_zero (gamma beta g3 ec : ℝ) : (pw91H0 gamma beta g3 0 ec).H = 0 := by
  simp [pw91H0]

/-- The reported derivatives are those of the energy along every curve through the point. -/
def COk (F : ℝ → ℝ → ℝ → ℝ → C4) (rs zeta g t2 : ℝ) : Prop :=
  ∀ (r z c s : ℝ → ℝ) (r' z' c' s' : ℝ), r 0 = rs → z 0 = zeta → c 0 = g → s 0 = t2 →
    HasDerivAt r r' 0 → HasDerivAt z z' 0 → HasDerivAt c c' 0 → HasDerivAt s s' 0 →
    HasDerivAt (fun t => (F (r t) (z t) (c t) (s t)).e)
      ((F rs zeta g t2).e_rs * r' + (F rs zeta g t2).e_zeta * z' + (F rs zeta g t2).e_g * c' + (F rs zeta g t2).e_t2 * s') 0

theorem pbeGamma_pos : 0 < pbeGamma := by
  unfold pbeGamma
  have := Real.log_lt_sub_one_of_pos (show (0 : ℝ) < 2 by norm_num) (by norm_num)
  have := Real.pi_pos
  have : 0 < 1 - Real.log 2 := by linarith
  positivity

theorem pbeC_ok (beta rs zeta g t2 : ℝ) (hb : 0 < beta) (h : 0 < rs) (h1 : -1 < zeta) (h2 : zeta < 1) (hg : 0 < g) (ht : 0 ≤ t2) :
    COk (pbeCorrelation beta 0) rs zeta g t2 := by
  intro r z c s r' z' c' s' hr0 hz0 hc0 hs0 hr hz hc hs
  have hec := LDA.eval_ok .pwPrec rs zeta h (by simp) h1 h2 r z r' z' hr0 hz0 hr hz
  have hn := ec_neg .pwPrec (Or.inr rfl) rs zeta h h1.le h2.le
  have hg3 := hc.fun_mul (hc.fun_mul hc)
  have hH := pw91H0_ok pbeGamma beta (g * (g * g)) t2 (LDA.eval .pwPrec rs zeta).e ⟨pbeGamma_pos, hb, by positivity, ht, hn⟩ _ _ _ _ _ _
    (by simp only [hc0]) hs0 (by simp only [hr0, hz0]) hg3 hs hec
  simp only [pbeCorrelation]
  refine (hec.fun_add hH).congr_deriv ?_
  rw [hc0]
  ring

theorem pw91Nu_pos : 0 < pw91Nu := by
  unfold pw91Nu
  have := Real.pi_pos
  positivity

theorem pw91Beta_pos : 0 < pw91Beta := by
  unfold pw91Beta
  exact mul_pos pw91Nu_pos (by norm_num)

theorem cxc_ok (rs : ℝ) (h : 0 < rs) : HasDerivAt (fun r => (pw91Cxc r).1) (pw91Cxc rs).2 rs := by
  have hid := hasDerivAt_id' rs
  have hN := ((hid.fun_mul ((hid.mul_const (7.389e-6 : ℝ)).const_add 2.3266e-2)).const_add (2.568e-3 : ℝ))
  have hD := ((hid.fun_mul ((hid.fun_mul ((hid.mul_const (1e4 * 7.389e-6 : ℝ)).const_add 0.472)).const_add 8.723)).const_add (1 : ℝ))
  have hd : 0 < 1 + rs * (8.723 + rs * (0.472 + rs * (1e4 * 7.389e-6))) := by positivity
  simp only [pw91Cxc]
  refine (hN.fun_div hD hd.ne').congr_deriv ?_
  rw [sq]
  congr 1
  ring

theorem pw91C_ok (rs zeta g t2 : ℝ) (h : 0 < rs) (h1 : -1 < zeta) (h2 : zeta < 1) (hg : 0 < g) (ht : 0 ≤ t2) :
    COk pw91Correlation rs zeta g t2 := by
  intro r z c s r' z' c' s' hr0 hz0 hc0 hs0 hr hz hc hs
  have hec := LDA.eval_ok .pw rs zeta h (by simp) h1 h2 r z r' z' hr0 hz0 hr hz
  have hn := ec_neg .pw (Or.inl rfl) rs zeta h h1.le h2.le
  have hg2 := hc.fun_mul hc
  have hg3 := hc.fun_mul hg2
  have hg4 := hg2.fun_mul hg2
  have hgam : 0 < (pw91Beta * pw91Beta) / (2 * 0.09) := div_pos (mul_pos pw91Beta_pos pw91Beta_pos) (by norm_num)
  have hH := pw91H0_ok ((pw91Beta * pw91Beta) / (2 * 0.09)) pw91Beta (g * (g * g)) t2 (LDA.eval .pw rs zeta).e
    ⟨hgam, pw91Beta_pos, by positivity, ht, hn⟩ _ _ _ _ _ _ (by simp only [hc0]) hs0 (by simp only [hr0, hz0]) hg3 hs hec
  have hC := comp_at (cxc_ok rs h) hr0 hr
  have hnu := ((hC.sub_const 2.568e-3).sub_const ((3 / 7) * -1.667e-3)).const_mul pw91Nu
  have hE := (((hg4.const_mul (-pw91Sigma)).fun_mul hr).fun_mul hs).exp
  have hH1 := ((hnu.fun_mul hg3).fun_mul hs).fun_mul hE
  simp only [pw91Correlation]
  refine ((hec.fun_add hH1).fun_add hH).congr_deriv ?_
  simp only [hr0, hc0, hs0]
  ring

theorem evalC_ok (v : CVar) (rs zeta g t2 : ℝ) (h : 0 < rs) (h1 : -1 < zeta) (h2 : zeta < 1) (hg : 0 < g) (ht : 0 ≤ t2) :
    COk (evalC v) rs zeta g t2 := by
  cases v
  · exact pbeC_ok _ rs zeta g t2 (by norm_num) h h1 h2 hg ht
  · exact pbeC_ok _ rs zeta g t2 (by norm_num) h h1 h2 hg ht
  · exact pw91C_ok rs zeta g t2 h h1 h2 hg ht

end
end Jdftx.GGA
