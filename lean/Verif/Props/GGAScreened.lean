import Verif.Lemmas.GGAScreened

/-!
# C87: the screened functional of HSE06
-/
namespace Jdftx.GGA
noncomputable section
open MeasureTheory Filter Set LDA
open scoped Topology

/-- The closed forms used for the integrals of Gaussians with the complementary error function are those integrals. -/
theorem C87_integrals (A B : ℝ) (hA : 0 < A) (hB : 0 < B) :
    (integral1 A B).v = ∫ y in Ioi (0 : ℝ), y ^ 1 * Real.exp (-A * y ^ 2) * Smear.erfc (B * y) ∧
    (integral2 A B).v = ∫ y in Ioi (0 : ℝ), y ^ 2 * Real.exp (-A * y ^ 2) * Smear.erfc (B * y) ∧
    (integral3 A B).v = ∫ y in Ioi (0 : ℝ), y ^ 3 * Real.exp (-A * y ^ 2) * Smear.erfc (B * y) ∧
    (integral5 A B).v = ∫ y in Ioi (0 : ℝ), y ^ 5 * Real.exp (-A * y ^ 2) * Smear.erfc (B * y) :=
  ⟨integral1_eq A B hA hB, integral2_eq A B hA hB, integral3_eq A B hA hB, integral5_eq A B hA hB⟩

example : (integral1 1 1).v = (1 - 1 / Real.sqrt 2) / 2 := by
  simp only [integral1]; norm_num; ring

/-- The energy is the integral of the published hole with the screened Coulomb interaction, except that the last coefficient
of the hole is `usedG` and not `publishedG`, and that the screening is `2^(-1/3)` times the 0.11 of HSE06. Missing: agreement
in these two. -/
theorem C87_screened_energy_partial (scaleFac n sigma : ℝ) (h : nCutoff ≤ n) (hs : 0 ≤ sigma) :
    (compute1 (.x .wpbe) scaleFac n sigma).E = scaleFac * screened usedG (0.11 * (2 : ℝ) ^ (-(1 / 3) : ℝ)) n sigma := by
  have hn : 0 < n := lt_of_lt_of_le (by norm_num [nCutoff]) h
  have e := s2_eq 1 n sigma one_pos hn
  simp only [mul_one, one_pow, one_mul] at e
  simp only [compute1, xTurn, mul_one, if_neg (not_lt.2 h), evalX, e,
    wpbe_energy _ _ (LDA.rsOf_pos n hn) (sSquared_nonneg n sigma hs), screened, erfcArg_eq n hn]
  rw [← slater_energy n hn]
  ring

/-- With spin, it is averaged over twice each spin density. -/
theorem C87_screened_spin_energy_partial (scaleFac n0 n1 s0 s1 s2 : ℝ) (h0 : nCutoff ≤ 2 * n0) (h1 : nCutoff ≤ 2 * n1) (q0 : 0 ≤ s0) (q2 : 0 ≤ s2) :
    (compute2 (.x .wpbe) scaleFac n0 n1 s0 s1 s2).E = scaleFac * ((screened usedG (0.11 * (2 : ℝ) ^ (-(1 / 3) : ℝ)) (2 * n0) (4 * s0)
      + screened usedG (0.11 * (2 : ℝ) ^ (-(1 / 3) : ℝ)) (2 * n1) (4 * s2)) / 2) := by
  have turn : ∀ n s, nCutoff ≤ 2 * n → 0 ≤ s →
      (xTurn .wpbe 2 scaleFac n s).E = scaleFac * (screened usedG (0.11 * (2 : ℝ) ^ (-(1 / 3) : ℝ)) (2 * n) (4 * s) / 2) := by
    intro n s h hs
    have hn : 0 < n := by
      have : 0 < 2 * n := lt_of_lt_of_le (by norm_num [nCutoff]) h
      linarith
    have e := s2_eq 2 n s two_pos hn
    rw [mul_comm n 2, show (2 : ℝ) ^ 2 = 4 by norm_num] at e
    have hn2 : 0 < 2 * n := by linarith
    simp only [xTurn, mul_comm n 2, if_neg (not_lt.2 h), evalX, e,
      wpbe_energy _ _ (LDA.rsOf_pos _ hn2) (sSquared_nonneg _ _ (by positivity : 0 ≤ 4 * s)), screened, erfcArg_eq _ hn2]
    rw [← slater_energy _ hn2]
    ring
  simp only [compute2, both, turn n0 s0 h0 q0, turn n1 s2 h1 q2]
  ring

/-- The hole of a uniform gas contains one electron (an integral of `-3 pi/4`) with the published coefficient, and only with
that; the one of the code contains more than 5% too many. -/
theorem C87_screened_hole_violation :
    (∀ g, ∫ y in Ioi (0 : ℝ), uniformHole g y = -(3 * Real.pi / 4) ↔ g = publishedG 0 pC) ∧
    ∫ y in Ioi (0 : ℝ), uniformHole (usedG 0 pC) y < 1.05 * -(3 * Real.pi / 4) := by
  have hD : 0 < pD := by norm_num [pD]
  have hk : 0 < 15 * Real.sqrt Real.pi / (16 * pD ^ (7 / 2 : ℝ)) := by
    have := Real.sqrt_pos.2 Real.pi_pos
    positivity
  refine ⟨fun g => ?_, ?_⟩
  · rw [uniformHole_int]
    constructor
    · intro h
      have : 15 * Real.sqrt Real.pi / (16 * pD ^ (7 / 2 : ℝ)) * (g - publishedG 0 pC) = 0 := by linarith
      rcases mul_eq_zero.1 this with h | h
      · exact absurd h hk.ne'
      · linarith
    · rintro rfl
      ring
  · rw [uniformHole_int, G_difference, pD72]
    obtain ⟨a1, a2⟩ := sqrt_pi_bounds
    obtain ⟨b1, b2⟩ := sqrt_pA_bounds
    obtain ⟨c1, c2⟩ := sqrt_pD_bounds
    have hq : Real.sqrt Real.pi ^ 2 = Real.pi := Real.sq_sqrt Real.pi_pos.le
    generalize Real.sqrt Real.pi = a at *
    rw [← hq]
    generalize Real.sqrt pA = b at *
    generalize Real.sqrt pD = c at *
    have hc : 0 < c := by linarith
    have ha : 0 < a := by linarith
    rw [show 15 * a / (16 * (c * pD ^ 3)) * (1 / 5 * pC * pD - 8 / 5 * a * (c * pD ^ 3) * (b - 1))
      = a * (3 / 16 * pC / (c * pD ^ 2)) - a ^ 2 * (3 / 2 * (b - 1)) by field_simp; ring]
    have h1 : 3 / 16 * pC / (c * pD ^ 2) ≤ 3 / 16 * pC / (0.7602 * pD ^ 2) := by
      have : 3 / 16 * -pC / (0.7602 * pD ^ 2) ≤ 3 / 16 * -pC / (c * pD ^ 2) := by
        apply div_le_div_of_nonneg_left (by norm_num [pC]) (by positivity)
        exact mul_le_mul_of_nonneg_right c2.le (by positivity)
      rw [show 3 / 16 * -pC = -(3 / 16 * pC) by ring, neg_div, neg_div] at this
      linarith
    have h2 : a * (3 / 16 * pC / (c * pD ^ 2)) ≤ a * (3 / 16 * pC / (0.7602 * pD ^ 2)) := mul_le_mul_of_nonneg_left h1 ha.le
    have h3 : a ^ 2 * (3 / 2 * 0.008) ≤ a ^ 2 * (3 / 2 * (b - 1)) := mul_le_mul_of_nonneg_left (by linarith) (by positivity)
    norm_num [pC, pD] at h2 h3 ⊢
    nlinarith

/-- For high densities, where screening does not matter, the exchange energy of the uniform gas should be that of Dirac; it
comes out more than 5% too large. -/
theorem C87_screened_uniform_violation :
    ∃ L, 1.05 < L ∧ Tendsto (fun n => (compute1 (.x .wpbe) 1 n 0).E / diracExchange n) atTop (𝓝 L) := by
  refine ⟨unscreened (usedG 0 pC), unscreened_bound _ usedG_bound.le, ?_⟩
  have hw : Tendsto (fun n => erfcArgPrefac * rsOf n) atTop (𝓝[>] 0) := by
    refine tendsto_nhdsWithin_iff.2 ⟨?_, ?_⟩
    · have h1 : Tendsto (fun n : ℝ => 4 * Real.pi / 3 * n) atTop atTop := tendsto_id.const_mul_atTop (by have := Real.pi_pos; positivity)
      have h2 := (tendsto_rpow_neg_atTop (y := 1 / 3) (by norm_num)).comp h1
      have h3 := h2.const_mul erfcArgPrefac
      rw [mul_zero] at h3
      refine h3.congr fun n => ?_
      simp only [Function.comp_apply, rsOf]
      norm_num
    · filter_upwards [eventually_gt_atTop (0 : ℝ)] with n hn
      exact mul_pos erfcArgPrefac_pos (LDA.rsOf_pos n hn)
  have h := (holeI_zero (usedG 0 pC)).comp hw
  refine h.congr' ?_
  filter_upwards [eventually_gt_atTop (1 : ℝ)] with n hn
  have hn0 : 0 < n := by linarith
  have hc : nCutoff ≤ n := le_trans (by norm_num [nCutoff]) hn.le
  have hr := LDA.rsOf_pos n hn0
  have hp := Real.pi_pos
  have hd : diracExchange n ≠ 0 := by
    unfold diracExchange
    have : 0 < (3 / Real.pi) ^ (1 / 3 : ℝ) * n ^ (4 / 3 : ℝ) := by positivity
    nlinarith
  have l0 : limited 0 = 0 := by unfold limited; rw [if_neg (by norm_num), if_neg (by norm_num)]
  have h0 : holeDecay 0 = 0 := by simp [holeDecay]
  have f0 : holeFour 0 = pC := by simp [holeFour, h0]
  rw [C87_screened_energy_partial 1 n 0 hc le_rfl, one_mul]
  simp only [Function.comp_apply, screened, sSquared, zero_div, Real.sqrt_zero, l0, h0, f0, ← erfcArg_eq n hn0]
  rw [holeI_eq 0 pC _ _ le_rfl (mul_pos erfcArgPrefac_pos hr), mul_div_cancel_left₀ _ hd]

/-- At no density does the energy of the uniform gas equal that for the screening 0.11, which the exact exchange of HSE06 uses. -/
theorem C87_screened_range_violation (n : ℝ) (h : nCutoff ≤ n) : (compute1 (.x .wpbe) 1 n 0).E ≠ screened usedG 0.11 n 0 := by
  have hn : 0 < n := lt_of_lt_of_le (by norm_num [nCutoff]) h
  have hk := kF_pos n hn
  have hp := Real.pi_pos
  have l0 : limited 0 = 0 := by unfold limited; rw [if_neg (by norm_num), if_neg (by norm_num)]
  have h0 : holeDecay 0 = 0 := by simp [holeDecay]
  have f0 : holeFour 0 = pC := by simp [holeFour, h0]
  rw [C87_screened_energy_partial 1 n 0 h le_rfl, one_mul]
  simp only [screened, sSquared, zero_div, Real.sqrt_zero, l0, h0, f0]
  have hv : 0 < 0.11 * (2 : ℝ) ^ (-(1 / 3) : ℝ) / kF n := by positivity
  have hlt : 0.11 * (2 : ℝ) ^ (-(1 / 3) : ℝ) / kF n < 0.11 / kF n := by
    apply div_lt_div_of_pos_right _ hk
    have : (2 : ℝ) ^ (-(1 / 3) : ℝ) < 1 := Real.rpow_lt_one_of_one_lt_of_neg (by norm_num) (by norm_num)
    linarith
  rw [← holeI_eq 0 pC _ _ le_rfl hv, ← holeI_eq 0 pC _ _ le_rfl (hv.trans hlt)]
  have hm := holeI_strictMono (usedG 0 pC) (by linarith [usedG_bound]) hv hlt
  have hd : diracExchange n ≠ 0 := by
    unfold diracExchange
    have : 0 < (3 / Real.pi) ^ (1 / 3 : ℝ) * n ^ (4 / 3 : ℝ) := by positivity
    nlinarith
  intro he
  have := mul_left_cancel₀ hd he
  linarith

end
end Jdftx.GGA
