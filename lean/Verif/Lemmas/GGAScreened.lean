import Verif.Spec.GGAScreened
import Verif.Lemmas.GGAInt
import Verif.Lemmas.GGAEnergy

/-!
# Lemmas on the screened functional
-/
namespace Jdftx.GGA
noncomputable section
open MeasureTheory Filter Set LDA
open scoped Topology

theorem rescale_limited (s2 : ℝ) (h : 0 ≤ s2) : (rescale s2).1 = limited (Real.sqrt s2) ^ 2 := by
  have h225 : (s2 > 225) ↔ (Real.sqrt s2 > 15) := by
    rw [gt_iff_lt, gt_iff_lt, Real.lt_sqrt (by norm_num)]; norm_num
  have h1 : (s2 > 1) ↔ (Real.sqrt s2 > 1) := by
    rw [gt_iff_lt, gt_iff_lt, Real.lt_sqrt (by norm_num)]; norm_num
  unfold rescale limited
  by_cases c1 : s2 > 225
  · rw [if_pos c1, if_pos (h225.1 c1)]
    simp only [sMax]; norm_num
  · rw [if_neg c1, if_neg (fun q => c1 (h225.2 q))]
    by_cases c2 : s2 > 1
    · rw [if_pos c2, if_pos (h1.1 c2)]
      simp only [sMax, sq]
    · rw [if_neg c2, if_neg (fun q => c2 (h1.2 q)), Real.sq_sqrt h]

theorem limited_nonneg (s : ℝ) (h : 0 ≤ s) : 0 ≤ limited s := by
  unfold limited
  split_ifs with h1 h2
  · norm_num
  · have h2 : 1 < s := h2
    have h3 : Real.log (1 + Real.exp (s - 8.572844)) ≤ s := by
      rw [Real.log_le_iff_le_exp (by positivity)]
      have e1 : Real.exp (s - 8.572844) = Real.exp s * Real.exp (-8.572844) := by rw [← Real.exp_add]; ring_nf
      have e2 : Real.exp (-8.572844) ≤ 1 / 2 := by
        have := Real.add_one_le_exp (8.572844 : ℝ)
        rw [Real.exp_neg]
        rw [inv_le_comm₀ (Real.exp_pos _) (by norm_num)]
        linarith
      have e3 : 2 ≤ Real.exp s := by linarith [Real.add_one_le_exp s]
      have e4 : Real.exp s * Real.exp (-8.572844) ≤ Real.exp s * (1 / 2) := mul_le_mul_of_nonneg_left e2 (Real.exp_pos s).le
      rw [e1]
      linarith
    linarith
  · exact h

theorem holeH_decay (s : ℝ) (h : 0 ≤ s) : (holeH (s ^ 2)).1 = holeDecay s := by
  simp only [holeH, holeDecay, Real.sqrt_sq h]
  rw [mul_one_div, mul_div_assoc']
  congr 1 <;> ring

theorem holeF_four (s : ℝ) (h : 0 ≤ s) : (holeF (s ^ 2)).1 = holeFour s := by
  simp only [holeF, holeFour, holeH_decay s h, hC, pC]
  ring

theorem holeG_used (h f : ℝ) (hh : 0 ≤ h) : (holeG h f).1 = usedG h f := by
  have hD : 0 < pD + h := by simp only [pD]; positivity
  have e : (pD + h) ^ (7 / 2 : ℝ) = Real.sqrt (pD + h) * (pD + h) ^ 3 := by
    rw [show (7 / 2 : ℝ) = 1 / 2 + ((3 : ℕ) : ℝ) by norm_num, Real.rpow_add hD, Real.rpow_natCast, ← Real.sqrt_eq_rpow]
  have e2 : 2.25 / hA * h = 9 * h / (4 * pA) := by
    simp only [hA, pA]; norm_num; ring
  simp only [holeG, usedG, e, e2]
  simp only [hA, hB, Jdftx.GGA.hD, pA, pB, pD]
  norm_num
  ring

theorem holeDecay_nonneg (s : ℝ) (h : 0 ≤ s) : 0 ≤ holeDecay s := by
  unfold holeDecay; positivity

theorem iadd {μ : Measure ℝ} {f g : ℝ → ℝ} (hf : Integrable f μ) (hg : Integrable g μ) : Integrable (fun y => f y + g y) μ := hf.add hg

/-- The sum of integrals is the integral of the hole. -/
theorem holeI_eq (h f g w : ℝ) (hh : 0 ≤ h) (hw : 0 < w) :
    (holeI h f g w).1 = ∫ y in Ioi (0 : ℝ), fittedHole h f g y * Smear.erfc (w * y) := by
  have i : ∀ (n : Nat) (b : ℝ), 0 < b → Integrable (fun y : ℝ => y ^ n * Real.exp (-(b + h) * y ^ 2) * Smear.erfc (w * y)) (volume.restrict (Ioi 0)) :=
    fun n b hb => gaussErfc_int n (b + h) w (by linarith) hw.le
  have hD : 0 < hD := by norm_num [hD]
  have hs : ∀ y : ℝ, fittedHole h f g y * Smear.erfc (w * y) =
      (-0.000205484) * (y ^ 1 * Real.exp (-(0.006601306 + h) * y ^ 2) * Smear.erfc (w * y))
      + (-0.109465240) * (y ^ 1 * Real.exp (-(0.259931140 + h) * y ^ 2) * Smear.erfc (w * y))
      + (-0.064078780) * (y ^ 2 * Real.exp (-(0.520352224 + h) * y ^ 2) * Smear.erfc (w * y))
      + (-0.008181735) * (y ^ 2 * Real.exp (-(0.118551043 + h) * y ^ 2) * Smear.erfc (w * y))
      + (-0.000110666) * (y ^ 3 * Real.exp (-(0.046003777 + h) * y ^ 2) * Smear.erfc (w * y))
      + (Jdftx.GGA.hB * (y ^ 1 * Real.exp (-(Jdftx.GGA.hD + h) * y ^ 2) * Smear.erfc (w * y))
        + f * (y ^ 3 * Real.exp (-(Jdftx.GGA.hD + h) * y ^ 2) * Smear.erfc (w * y))
        + g * (y ^ 5 * Real.exp (-(Jdftx.GGA.hD + h) * y ^ 2) * Smear.erfc (w * y))) := by
    intro y
    have e : ∀ b : ℝ, Real.exp (-(b + h) * y ^ 2) = Real.exp (-b * y ^ 2) * Real.exp (-h * y ^ 2) := by
      intro b; rw [← Real.exp_add]; ring_nf
    have e6 : Jdftx.GGA.hD = pD := rfl
    have e7 : Jdftx.GGA.hB = pB := rfl
    simp only [e, e6, e7, fittedHole]
    ring
  simp only [hs]
  have j1 := (i 1 0.006601306 (by norm_num)).const_mul (-0.000205484)
  have j2 := (i 1 0.259931140 (by norm_num)).const_mul (-0.109465240)
  have j3 := (i 2 0.520352224 (by norm_num)).const_mul (-0.064078780)
  have j4 := (i 2 0.118551043 (by norm_num)).const_mul (-0.008181735)
  have j5 := (i 3 0.046003777 (by norm_num)).const_mul (-0.000110666)
  have j6 := (i 1 _ hD).const_mul Jdftx.GGA.hB
  have j7 := (i 3 _ hD).const_mul f
  have j8 := (i 5 _ hD).const_mul g
  rw [integral_add (iadd (iadd (iadd (iadd j1 j2) j3) j4) j5) (iadd (iadd j6 j7) j8), integral_add (iadd (iadd (iadd j1 j2) j3) j4) j5,
    integral_add (iadd (iadd j1 j2) j3) j4, integral_add (iadd j1 j2) j3, integral_add j1 j2, integral_add (iadd j6 j7) j8, integral_add j6 j7]
  simp only [integral_const_mul]
  have p : ∀ b : ℝ, 0 < b → 0 < b + h := fun b hb => by linarith
  simp only [holeI]
  rw [integral1_eq _ w (p _ (by norm_num)) hw, integral1_eq _ w (p _ (by norm_num)) hw, integral2_eq _ w (p _ (by norm_num)) hw,
    integral2_eq _ w (p _ (by norm_num)) hw, integral3_eq _ w (p _ (by norm_num)) hw, integral1_eq _ w (p _ hD) hw, integral3_eq _ w (p _ hD) hw,
    integral5_eq _ w (p _ hD) hw]
  rfl

theorem erfcArg_eq (n : ℝ) (h : 0 < n) : erfcArgPrefac * rsOf n = 0.11 * (2 : ℝ) ^ (-(1 / 3) : ℝ) / kF n := by
  have hp := Real.pi_pos
  have hk := kF_pos n h
  rw [eq_div_iff hk.ne']
  have hr := LDA.rsOf_pos n h
  have h1 := inv_rs n h
  rw [one_div, inv_eq_iff_eq_inv] at h1
  rw [h1]
  unfold erfcArgPrefac kF
  rw [← Real.mul_rpow (by positivity) h.le, ← Real.inv_rpow (by positivity), mul_assoc, mul_assoc,
    ← Real.mul_rpow (by positivity) (by positivity), ← Real.mul_rpow (by positivity) (by positivity), Real.rpow_neg (by norm_num), ← Real.inv_rpow (by norm_num)]
  congr 2
  field_simp
  norm_num

theorem wpbe_energy (rs s2 : ℝ) (hr : 0 < rs) (hs : 0 ≤ s2) :
    (wpbeExchange rs s2).e = (slaterExchange rs).e * (-(8 / 9) * ∫ y in Ioi (0 : ℝ),
      fittedHole (holeDecay (limited (Real.sqrt s2))) (holeFour (limited (Real.sqrt s2)))
        (usedG (holeDecay (limited (Real.sqrt s2))) (holeFour (limited (Real.sqrt s2)))) y * Smear.erfc (erfcArgPrefac * rs * y)) := by
  have hl := limited_nonneg _ (Real.sqrt_nonneg s2)
  have hw : 0 < erfcArgPrefac * rs := mul_pos erfcArgPrefac_pos hr
  simp only [wpbeExchange, rescale_limited s2 hs, holeH_decay _ hl, holeF_four _ hl, holeG_used _ _ (holeDecay_nonneg _ hl),
    holeI_eq _ _ _ _ (holeDecay_nonneg _ hl) hw]
  ring

/-! ### The uniform gas -/

theorem uniform_part : IntegrableOn (fun y : ℝ => -pA / (1 + 4 / 9 * pA * y ^ 2)) (Ioi 0) ∧
    ∫ y in Ioi (0 : ℝ), -pA / (1 + 4 / 9 * pA * y ^ 2) = -(3 * Real.pi / 4) * Real.sqrt pA := by
  have hA : 0 < pA := by norm_num [pA]
  set c := Real.sqrt pA with hc
  have hc0 : 0 < c := Real.sqrt_pos.2 hA
  have hcc : c ^ 2 = pA := Real.sq_sqrt hA.le
  have hder : ∀ y ∈ Ioi (0 : ℝ), HasDerivAt (fun y => -(3 / 2 * c) * Real.arctan (2 / 3 * c * y)) (-pA / (1 + 4 / 9 * pA * y ^ 2)) y := by
    intro y _
    have h1 : HasDerivAt (fun y : ℝ => 2 / 3 * c * y) (2 / 3 * c) y := by simpa using (hasDerivAt_id y).const_mul (2 / 3 * c)
    refine (h1.arctan.const_mul (-(3 / 2 * c))).congr_deriv ?_
    rw [← hcc]
    have : 0 < 1 + 4 / 9 * c ^ 2 * y ^ 2 := by positivity
    rw [show 1 + (2 / 3 * c * y) ^ 2 = 1 + 4 / 9 * c ^ 2 * y ^ 2 by ring]
    field_simp
  have hcont : ContinuousWithinAt (fun y => -(3 / 2 * c) * Real.arctan (2 / 3 * c * y)) (Ici 0) 0 := by
    have := Real.continuous_arctan
    exact Continuous.continuousWithinAt (by fun_prop)
  have hnonpos : ∀ y ∈ Ioi (0 : ℝ), -pA / (1 + 4 / 9 * pA * y ^ 2) ≤ 0 := by
    intro y _
    exact div_nonpos_of_nonpos_of_nonneg (by linarith) (by positivity)
  have htop : Tendsto (fun y => -(3 / 2 * c) * Real.arctan (2 / 3 * c * y)) atTop (𝓝 (-(3 / 2 * c) * (Real.pi / 2))) := by
    have h1 : Tendsto (fun y : ℝ => 2 / 3 * c * y) atTop atTop := tendsto_id.const_mul_atTop (by positivity)
    exact (Tendsto.comp (tendsto_nhds_of_tendsto_nhdsWithin Real.tendsto_arctan_atTop) h1).const_mul _
  refine ⟨integrableOn_Ioi_deriv_of_nonpos hcont hder hnonpos htop, ?_⟩
  rw [integral_Ioi_of_hasDerivAt_of_nonpos hcont hder hnonpos htop]
  simp
  ring

/-- Number of electrons in the hole of the uniform gas. -/
theorem uniformHole_int (g : ℝ) : ∫ y in Ioi (0 : ℝ), uniformHole g y = -(3 * Real.pi / 4) + 15 * Real.sqrt Real.pi / (16 * pD ^ (7 / 2 : ℝ)) * (g - publishedG 0 pC) := by
  have hD : 0 < pD := by norm_num [pD]
  have k : ∀ n, Integrable (fun y : ℝ => y ^ n * Real.exp (-pD * y ^ 2)) (volume.restrict (Ioi 0)) := fun n => gauss_int n pD hD
  obtain ⟨u1, u2⟩ := uniform_part
  have e : ∀ y : ℝ, uniformHole g y = -pA / (1 + 4 / 9 * pA * y ^ 2) + (pA * (y ^ 0 * Real.exp (-pD * y ^ 2)) + pB * (y ^ 2 * Real.exp (-pD * y ^ 2))
      + pC * (y ^ 4 * Real.exp (-pD * y ^ 2)) + g * (y ^ 6 * Real.exp (-pD * y ^ 2))) := by
    intro y; unfold uniformHole; ring
  simp only [e]
  have k0 := (k 0).const_mul pA
  have k2 := (k 2).const_mul pB
  have k4 := (k 4).const_mul pC
  have k6 := (k 6).const_mul g
  rw [integral_add u1 (iadd (iadd (iadd k0 k2) k4) k6), u2, integral_add (iadd (iadd k0 k2) k4) k6, integral_add (iadd k0 k2) k4, integral_add k0 k2]
  simp only [integral_const_mul, gauss_val _ pD hD]
  have r0 := rpow_half pD hD 0
  have r1 := rpow_half pD hD 1
  have r2 := rpow_half pD hD 2
  have r3 := rpow_half pD hD 3
  have g1 := Real.Gamma_one_half_eq
  norm_num at r0 r1 r2 r3
  have e7 : pD ^ (7 / 2 : ℝ) = Real.sqrt pD * pD ^ 3 := by
    rw [show (7 / 2 : ℝ) = 1 / 2 + ((3 : ℕ) : ℝ) by norm_num, Real.rpow_add hD, Real.rpow_natCast, ← Real.sqrt_eq_rpow]
  have e0 : Smear.erfc 0 = 1 := erfc_zero
  norm_num [publishedG, gamma32, gamma52, gamma72, g1, r0, r1, r2, r3, e7, e0]
  have hs : 0 < Real.sqrt pD := Real.sqrt_pos.2 hD
  have hss : Real.sqrt pD ^ 2 = pD := Real.sq_sqrt hD.le
  have hpi : Real.sqrt Real.pi ^ 2 = Real.pi := Real.sq_sqrt Real.pi_pos.le
  have hp0 : 0 < Real.sqrt Real.pi := Real.sqrt_pos.2 Real.pi_pos
  generalize Real.sqrt pA = a
  generalize Real.sqrt Real.pi = q at *
  generalize Real.sqrt pD = d at *
  rw [← hpi, ← hss]
  field_simp
  ring

theorem sqrt_pi_bounds : 1.772 < Real.sqrt Real.pi ∧ Real.sqrt Real.pi < 1.773 := by
  have h1 := Real.pi_gt_d4
  have h2 := Real.pi_lt_d4
  refine ⟨Real.lt_sqrt_of_sq_lt (by norm_num at *; linarith), ?_⟩
  rw [Real.sqrt_lt' (by norm_num)]
  norm_num at *
  linarith

theorem sqrt_pA_bounds : 1.008 < Real.sqrt pA ∧ Real.sqrt pA < 1.0081 := by
  refine ⟨Real.lt_sqrt_of_sq_lt (by norm_num [pA]), ?_⟩
  rw [Real.sqrt_lt' (by norm_num)]
  norm_num [pA]

theorem sqrt_pD_bounds : 0.76 < Real.sqrt pD ∧ Real.sqrt pD < 0.7602 := by
  refine ⟨Real.lt_sqrt_of_sq_lt (by norm_num [pD]), ?_⟩
  rw [Real.sqrt_lt' (by norm_num)]
  norm_num [pD]

theorem pD72 : pD ^ (7 / 2 : ℝ) = Real.sqrt pD * pD ^ 3 := by
  have hD : 0 < pD := by norm_num [pD]
  rw [show (7 / 2 : ℝ) = 1 / 2 + ((3 : ℕ) : ℝ) by norm_num, Real.rpow_add hD, Real.rpow_natCast, ← Real.sqrt_eq_rpow]

/-- At zero gradient. -/
theorem usedG_zero : usedG 0 pC = -(1 / 5) * pC * pD - 4 / 15 * pB * pD ^ 2 - 8 / 15 * pA * pD ^ 3
    - 4 / 5 * Real.sqrt Real.pi * (Real.sqrt pD * pD ^ 3) * (Real.sqrt pA - 1) := by
  simp only [usedG, add_zero, mul_zero, zero_div, Real.exp_zero, Real.sqrt_zero, erfc_zero, mul_one, pD72]

theorem usedG_bound : usedG 0 pC < -0.064 := by
  rw [usedG_zero]
  obtain ⟨a1, a2⟩ := sqrt_pi_bounds
  obtain ⟨b1, b2⟩ := sqrt_pA_bounds
  obtain ⟨c1, c2⟩ := sqrt_pD_bounds
  generalize Real.sqrt Real.pi = a at *
  generalize Real.sqrt pA = b at *
  generalize Real.sqrt pD = c at *
  have h1 : 1.772 * 0.76 ≤ a * c := mul_le_mul a1.le c1.le (by norm_num) (by linarith)
  have h2 : 1.772 * 0.76 * 0.008 ≤ a * c * (b - 1) := mul_le_mul h1 (by linarith) (by norm_num) (by nlinarith)
  have e : 4 / 5 * a * (c * pD ^ 3) * (b - 1) = 4 / 5 * pD ^ 3 * (a * c * (b - 1)) := by ring
  rw [e]
  have h3 : 4 / 5 * pD ^ 3 * (1.772 * 0.76 * 0.008) ≤ 4 / 5 * pD ^ 3 * (a * c * (b - 1)) :=
    mul_le_mul_of_nonneg_left h2 (by norm_num [pD])
  refine lt_of_le_of_lt (sub_le_sub_left h3 _) ?_
  norm_num [pA, pB, pC, pD]

theorem G_difference : usedG 0 pC - publishedG 0 pC = 1 / 5 * pC * pD - 8 / 5 * Real.sqrt Real.pi * (Real.sqrt pD * pD ^ 3) * (Real.sqrt pA - 1) := by
  rw [usedG_zero]
  simp only [publishedG, add_zero, mul_zero, zero_div, Real.exp_zero, Real.sqrt_zero, erfc_zero, mul_one, pD72]
  ring

/-- The integrals without screening. -/
theorem integral1_zero (A : ℝ) (hA : 0 < A) : Tendsto (fun w => (integral1 A w).v) (𝓝[>] 0) (𝓝 (1 / (2 * A))) := by
  have : ContinuousAt (fun w => (integral1 A w).v) 0 := (v_deriv _ _ _ (integral1_ok A 0 hA)).continuousAt
  have h := this.tendsto.mono_left (nhdsWithin_le_nhds (s := Ioi 0))
  have e : (integral1 A 0).v = 1 / (2 * A) := by
    simp only [integral1]; norm_num; ring
  rwa [e] at h

theorem integral3_zero (A : ℝ) (hA : 0 < A) : Tendsto (fun w => (integral3 A w).v) (𝓝[>] 0) (𝓝 (1 / (2 * A ^ 2))) := by
  have : ContinuousAt (fun w => (integral3 A w).v) 0 := (v_deriv _ _ _ (integral3_ok A 0 hA)).continuousAt
  have h := this.tendsto.mono_left (nhdsWithin_le_nhds (s := Ioi 0))
  have e : (integral3 A 0).v = 1 / (2 * A ^ 2) := by
    simp only [integral3]; norm_num; ring
  rwa [e] at h

theorem integral5_zero (A : ℝ) (hA : 0 < A) : Tendsto (fun w => (integral5 A w).v) (𝓝[>] 0) (𝓝 (1 / A ^ 3)) := by
  have : ContinuousAt (fun w => (integral5 A w).v) 0 := (v_deriv _ _ _ (integral5_ok A 0 hA)).continuousAt
  have h := this.tendsto.mono_left (nhdsWithin_le_nhds (s := Ioi 0))
  have e : (integral5 A 0).v = 1 / A ^ 3 := by
    simp only [integral5]; norm_num; ring
  rwa [e] at h

theorem integral2_zero (A : ℝ) (hA : 0 < A) : Tendsto (fun w => (integral2 A w).v) (𝓝[>] 0) (𝓝 (Real.sqrt Real.pi / (4 * A * Real.sqrt A))) := by
  have hs : 0 < Real.sqrt A := Real.sqrt_pos.2 hA
  have h1 : Tendsto (fun w : ℝ => Real.sqrt A / w) (𝓝[>] 0) atTop := by
    simpa [div_eq_mul_inv] using (tendsto_inv_nhdsGT_zero (𝕜 := ℝ)).const_mul_atTop hs
  have h2 := (Tendsto.comp (tendsto_nhds_of_tendsto_nhdsWithin Real.tendsto_arctan_atTop) h1).mul_const (1 / A / Real.sqrt A)
  have h3 : Tendsto (fun w : ℝ => -w * (1 / (A + w * w)) / A) (𝓝[>] 0) (𝓝 (-0 * (1 / (A + 0 * 0)) / A)) := by
    have : ContinuousAt (fun w : ℝ => -w * (1 / (A + w * w)) / A) 0 := by
      have : A + (0 : ℝ) * 0 ≠ 0 := by simpa using hA.ne'
      fun_prop (disch := assumption)
    exact this.tendsto.mono_left nhdsWithin_le_nhds
  have h := (h3.add h2).const_mul (0.5 * (1 / Real.sqrt Real.pi))
  have e : 0.5 * (1 / Real.sqrt Real.pi) * (-0 * (1 / (A + 0 * 0)) / A + Real.pi / 2 * (1 / A / Real.sqrt A)) = Real.sqrt Real.pi / (4 * A * Real.sqrt A) := by
    have hq : Real.sqrt Real.pi ^ 2 = Real.pi := Real.sq_sqrt Real.pi_pos.le
    have hq0 : 0 < Real.sqrt Real.pi := Real.sqrt_pos.2 Real.pi_pos
    generalize Real.sqrt Real.pi = q at *
    rw [← hq]
    norm_num
    field_simp
    norm_num
  rw [e] at h
  refine h.congr fun w => ?_
  simp only [integral2, Function.comp_apply]
  ring

/-- The factor by which the energy of the uniform gas is multiplied when screening is negligible. -/
def unscreened (g : ℝ) : ℝ :=
  -(8 / 9) * (-0.000205484 * (1 / (2 * 0.006601306)) + -0.109465240 * (1 / (2 * 0.259931140))
    + -0.064078780 * (Real.sqrt Real.pi / (4 * 0.520352224 * Real.sqrt 0.520352224))
    + -0.008181735 * (Real.sqrt Real.pi / (4 * 0.118551043 * Real.sqrt 0.118551043)) + -0.000110666 * (1 / (2 * 0.046003777 ^ 2))
    + (pB * (1 / (2 * pD)) + pC * (1 / (2 * pD ^ 2)) + g * (1 / pD ^ 3)))

theorem holeI_zero (g : ℝ) : Tendsto (fun w => -(8 / 9) * (holeI 0 pC g w).1) (𝓝[>] 0) (𝓝 (unscreened g)) := by
  have hD : 0 < pD := by norm_num [pD]
  simp only [holeI, add_zero, unscreened]
  exact (((((((integral1_zero _ (by norm_num)).const_mul _).add ((integral1_zero _ (by norm_num)).const_mul _)).add
    ((integral2_zero _ (by norm_num)).const_mul _)).add ((integral2_zero _ (by norm_num)).const_mul _)).add
    ((integral3_zero _ (by norm_num)).const_mul _)).add
    ((((integral1_zero _ hD).const_mul _).add ((integral3_zero _ hD).const_mul _)).add ((integral5_zero _ hD).const_mul _))).const_mul _

theorem unscreened_bound (g : ℝ) (hg : g ≤ -0.064) : 1.05 < unscreened g := by
  have hs3 : Real.sqrt 0.520352224 < 0.7214 := by rw [Real.sqrt_lt' (by norm_num)]; norm_num
  have hs4 : Real.sqrt 0.118551043 < 0.3444 := by rw [Real.sqrt_lt' (by norm_num)]; norm_num
  have h3 : 0 < Real.sqrt 0.520352224 := Real.sqrt_pos.2 (by norm_num)
  have h4 : 0 < Real.sqrt 0.118551043 := Real.sqrt_pos.2 (by norm_num)
  obtain ⟨a1, _⟩ := sqrt_pi_bounds
  unfold unscreened
  have k3 : 1.772 / (4 * 0.520352224 * 0.7214) ≤ Real.sqrt Real.pi / (4 * 0.520352224 * Real.sqrt 0.520352224) := by
    apply div_le_div₀ (by positivity) a1.le (by positivity)
    exact mul_le_mul_of_nonneg_left hs3.le (by norm_num)
  have k4 : 1.772 / (4 * 0.118551043 * 0.3444) ≤ Real.sqrt Real.pi / (4 * 0.118551043 * Real.sqrt 0.118551043) := by
    apply div_le_div₀ (by positivity) a1.le (by positivity)
    exact mul_le_mul_of_nonneg_left hs4.le (by norm_num)
  generalize Real.sqrt Real.pi / (4 * 0.520352224 * Real.sqrt 0.520352224) = x at *
  generalize Real.sqrt Real.pi / (4 * 0.118551043 * Real.sqrt 0.118551043) = y at *
  have hg2 : g * (1 / pD ^ 3) ≤ -0.064 * (1 / pD ^ 3) := mul_le_mul_of_nonneg_right hg (by norm_num [pD])
  norm_num [pB, pC, pD] at *
  linarith

/-! ### Dependence on screening -/

theorem gaussErfc_strictAnti (n : Nat) (A : ℝ) (hA : 0 < A) {v w : ℝ} (hv : 0 < v) (h : v < w) : gaussErfc n A w < gaussErfc n A v := by
  have hanti : StrictAntiOn (gaussErfc n A) (Ioi 0) := by
    refine strictAntiOn_of_deriv_neg (convex_Ioi 0) (fun b hb => (gaussErfc_deriv n A b hA hb).continuousAt.continuousWithinAt) fun b hb => ?_
    rw [interior_Ioi] at hb
    have hb : 0 < b := hb
    rw [(gaussErfc_deriv n A b hA hb).deriv]
    have h1 : 0 < Real.Gamma (((n : ℝ) + 2) / 2) := Real.Gamma_pos_of_pos (by positivity)
    have h2 : 0 < Real.sqrt Real.pi := Real.sqrt_pos.2 Real.pi_pos
    have : 0 < 2 / Real.sqrt Real.pi * ((A + b * b) ^ (-((n : ℝ) + 2) / 2) * (1 / 2) * Real.Gamma (((n : ℝ) + 2) / 2)) := by positivity
    linarith
  exact hanti hv (hv.trans h) h

theorem holeI_strictMono (g : ℝ) (hg : g < 0) {v w : ℝ} (hv : 0 < v) (h : v < w) : (holeI 0 pC g v).1 < (holeI 0 pC g w).1 := by
  have hD : 0 < hD := by norm_num [hD]
  have hw := hv.trans h
  have k := fun n A (hA : 0 < A) => gaussErfc_strictAnti n A hA hv h
  have k1 := k 1 0.006601306 (by norm_num)
  have k2 := k 1 0.259931140 (by norm_num)
  have k3 := k 2 0.520352224 (by norm_num)
  have k4 := k 2 0.118551043 (by norm_num)
  have k5 := k 3 0.046003777 (by norm_num)
  have k6 := k 1 _ hD
  have k7 := k 3 _ hD
  have k8 := k 5 _ hD
  simp only [holeI, add_zero]
  rw [integral1_eq _ v (by norm_num) hv, integral1_eq _ v (by norm_num) hv, integral2_eq _ v (by norm_num) hv, integral2_eq _ v (by norm_num) hv,
    integral3_eq _ v (by norm_num) hv, integral1_eq _ v hD hv, integral3_eq _ v hD hv, integral5_eq _ v hD hv,
    integral1_eq _ w (by norm_num) hw, integral1_eq _ w (by norm_num) hw, integral2_eq _ w (by norm_num) hw, integral2_eq _ w (by norm_num) hw,
    integral3_eq _ w (by norm_num) hw, integral1_eq _ w hD hw, integral3_eq _ w hD hw, integral5_eq _ w hD hw]
  have l6 := mul_lt_mul_of_neg_left k6 (show Jdftx.GGA.hB < 0 by norm_num [Jdftx.GGA.hB])
  have l7 := mul_lt_mul_of_neg_left k7 (show pC < 0 by norm_num [pC])
  have l8 := mul_lt_mul_of_neg_left k8 hg
  norm_num at k1 k2 k3 k4 k5 ⊢
  linarith

end
end Jdftx.GGA
