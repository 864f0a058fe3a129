import Verif.Lemmas.Cavity
import Mathlib.Analysis.Calculus.FDeriv.Pi

/-!
# C76: cavity shape functions
-/
namespace Jdftx.Cavity
open Filter Topology
noncomputable section

/-! ### Specification -/

/-- `g` is the gradient of `E` at `x`: derivatives in all directions are given by it. -/
def IsGradient {N : Nat} (E : (Fin N → ℝ) → ℝ) (g : Fin N → ℝ) (x : Fin N → ℝ) : Prop :=
  ∃ L : (Fin N → ℝ) →L[ℝ] ℝ, HasFDerivAt E L x ∧ ∀ d, L d = ∑ j, g j * d j

theorem chain {N : Nat} (f f' : ℝ → ℝ) (E : (Fin N → ℝ) → ℝ) (g : Fin N → ℝ) (x : Fin N → ℝ) (hE : IsGradient E g fun j => f (x j))
    (hf : ∀ j, HasDerivAt f (f' (x j)) (x j)) : IsGradient (fun n => E fun j => f (n j)) (fun j => g j * f' (x j)) x := by
  obtain ⟨L, hL, hg⟩ := hE
  have h1 : HasFDerivAt (fun n : Fin N → ℝ => fun j => f (n j)) (ContinuousLinearMap.pi fun j => (f' (x j)) • ContinuousLinearMap.proj (R := ℝ) (φ := fun _ : Fin N => ℝ) j) x := by
    rw [hasFDerivAt_pi]
    intro j
    have := (hf j).comp_hasFDerivAt x (ContinuousLinearMap.proj (R := ℝ) (φ := fun _ : Fin N => ℝ) j).hasFDerivAt
    exact this
  refine ⟨_, hL.comp x h1, ?_⟩
  intro d
  rw [ContinuousLinearMap.comp_apply, hg]
  refine Finset.sum_congr rfl fun j _ => ?_
  simp only [ContinuousLinearMap.pi_apply, smul_apply, ContinuousLinearMap.proj_apply, smul_eq_mul]
  ring

/-! ### Shape function of the electron density -/

/-- **C76 (range).** The shape function lies between 0 and 1, is 1 exactly without electrons, one half at the critical density, and decreases with
the magnitude of the density. -/
theorem C76_range (nc sigma : ℝ) (hnc : 0 < nc) (hs : 0 < sigma) :
    (∀ n, 0 < shape nc sigma n ∧ shape nc sigma n ≤ 1) ∧ (∀ n, shape nc sigma n = 1 ↔ n = 0) ∧ shape nc sigma nc = 1 / 2 ∧
    ∀ a b : ℝ, |a| < |b| → shape nc sigma b < shape nc sigma a := by
  have hlt : ∀ n, n ≠ 0 → 0 < shape nc sigma n ∧ shape nc sigma n < 1 := by
    intro n hn
    unfold shape
    rw [if_neg hn]
    have h1 := erfc_pos (Real.sqrt 0.5 * Real.log (|n| / nc) / sigma)
    have h2 := erfc_lt_two (Real.sqrt 0.5 * Real.log (|n| / nc) / sigma)
    constructor <;> linarith
  have h0 : shape nc sigma 0 = 1 := by simp [shape]
  refine ⟨?_, ?_, ?_, ?_⟩
  · intro n
    by_cases hn : n = 0
    · subst hn; rw [h0]; norm_num
    · exact ⟨(hlt n hn).1, (hlt n hn).2.le⟩
  · intro n
    constructor
    · intro h
      by_contra hn
      exact (hlt n hn).2.ne h
    · rintro rfl; exact h0
  · unfold shape
    rw [if_neg hnc.ne', abs_of_pos hnc, div_self hnc.ne', Real.log_one]
    simp only [mul_zero, zero_div, erfc_zero]
    norm_num
  · intro a b hab
    have hb : b ≠ 0 := by
      rintro rfl
      simp at hab
      exact absurd hab (not_lt.2 (abs_nonneg a))
    by_cases ha : a = 0
    · subst ha; rw [h0]; exact (hlt b hb).2
    · unfold shape
      rw [if_neg ha, if_neg hb]
      have hapos : 0 < |a| := abs_pos.2 ha
      have hl : Real.log (|a| / nc) < Real.log (|b| / nc) := Real.log_lt_log (div_pos hapos hnc) (by gcongr)
      have h5 : 0 < Real.sqrt 0.5 := Real.sqrt_pos.2 (by norm_num)
      have : Smear.erfc (Real.sqrt 0.5 * Real.log (|b| / nc) / sigma) < Smear.erfc (Real.sqrt 0.5 * Real.log (|a| / nc) / sigma) := by
        apply erfc_anti; gcongr
      linarith

/-- **C76 (gradient; partial: densities are not negative, see `C76_negative_violation`).** If `gradShape` is the gradient of an energy with respect to the
shape, then the propagated gradient, less what was in the array before, is the gradient of this energy with respect to the density. -/
theorem C76_gradient_partial {N : Nat} (nc sigma : ℝ) (hnc : 0 < nc) (hs : 0 < sigma) (E : (Fin N → ℝ) → ℝ) (n gradShape gradN : Fin N → ℝ) (hn : ∀ j, 0 ≤ n j)
    (hE : IsGradient E gradShape fun j => shape nc sigma (n j)) :
    IsGradient (fun n => E fun j => shape nc sigma (n j)) (fun j => shapeGrad nc sigma (n j) (gradShape j) (gradN j) - gradN j) n := by
  have h := chain (shape nc sigma) (fun n => if n = 0 then 0 else slope nc sigma n) E gradShape n hE (by
    intro j
    by_cases h0 : n j = 0
    · rw [h0, if_pos rfl]; exact shape_deriv_zero nc sigma hnc hs
    · rw [if_neg h0]; exact shape_deriv nc sigma (n j) hnc hs h0)
  convert h using 2 with j
  unfold shapeGrad
  by_cases h0 : n j = 0
  · rw [if_pos h0, if_pos h0, mul_zero, mul_zero, add_zero, sub_self]
  · rw [if_neg h0, if_neg h0]
    have hc := slope_code nc sigma (n j) hnc hs h0
    rw [abs_of_nonneg (hn j), div_self h0, inv_one, one_mul] at hc
    rw [← hc, abs_of_nonneg (hn j)]
    generalize (-1.0 / (nc * sigma * Real.sqrt (2 * Real.pi)) : ℝ) = c
    generalize Real.exp _ = x
    ring

/-- At negative densities the propagated gradient has the wrong sign. -/
theorem C76_negative_violation (nc sigma n : ℝ) (hnc : 0 < nc) (hs : 0 < sigma) (hn : n < 0) :
    HasDerivAt (shape nc sigma) (-shapeGrad nc sigma n 1 0) n ∧ shapeGrad nc sigma n 1 0 < 0 := by
  have hc := slope_code nc sigma n hnc hs hn.ne
  have e : shapeGrad nc sigma n 1 0 = (|n| / n)⁻¹ * slope nc sigma n := by
    rw [← hc]; unfold shapeGrad; rw [if_neg hn.ne, mul_one, zero_add]
  have h1 : (|n| / n)⁻¹ = -1 := by rw [abs_of_neg hn, neg_div, div_self hn.ne]; norm_num
  rw [e, h1]
  refine ⟨(shape_deriv nc sigma n hnc hs hn.ne).congr_deriv (by ring), ?_⟩
  have hp : 0 < Real.sqrt (2 * Real.pi) := Real.sqrt_pos.2 (by positivity)
  have : slope nc sigma n = Real.exp (-(Real.log (|n| / nc)) ^ 2 / (2 * sigma ^ 2)) / (sigma * Real.sqrt (2 * Real.pi) * (-n)) := by
    unfold slope; rw [mul_neg, div_neg]
  have hpos : 0 < slope nc sigma n := by
    rw [this]
    have : 0 < -n := by linarith
    positivity
  linarith

/-! ### SCCS shape function -/

/-- **C76 (SCCS gradient).** For every density, including those at the limits and beyond. -/
theorem C76_sccs_gradient {N : Nat} (rhoMin rhoMax epsBulk : ℝ) (h0 : 0 < rhoMin) (h1 : rhoMin < rhoMax) (he : 0 < epsBulk) (he1 : epsBulk ≠ 1)
    (E : (Fin N → ℝ) → ℝ) (n gradShape gradN : Fin N → ℝ) (hE : IsGradient E gradShape fun j => sccs rhoMin rhoMax epsBulk (n j)) :
    IsGradient (fun n => E fun j => sccs rhoMin rhoMax epsBulk (n j)) (fun j => sccsGrad rhoMin rhoMax epsBulk (n j) (gradShape j) (gradN j) - gradN j) n := by
  have h := chain (sccs rhoMin rhoMax epsBulk) (fun r => sccsGrad rhoMin rhoMax epsBulk r 1 0) E gradShape n hE
    fun j => sccs_deriv rhoMin rhoMax epsBulk h0 h1 he he1 (n j)
  convert h using 2 with j
  unfold sccsGrad
  split
  · ring
  · split
    · ring
    · simp only; ring

/-- **C76 (SCCS range).** The shape function decreases from 1 (density at most `rhoMin`) to 0 (density at least `rhoMax`), continuously and strictly
in between. -/
theorem C76_sccs_range (rhoMin rhoMax epsBulk : ℝ) (h0 : 0 < rhoMin) (h1 : rhoMin < rhoMax) (he : 0 < epsBulk) (he1 : epsBulk ≠ 1) :
    Continuous (sccs rhoMin rhoMax epsBulk) ∧ Antitone (sccs rhoMin rhoMax epsBulk) ∧ StrictAntiOn (sccs rhoMin rhoMax epsBulk) (Set.Icc rhoMin rhoMax) ∧
    (∀ rho ≤ rhoMin, sccs rhoMin rhoMax epsBulk rho = 1) ∧ (∀ rho ≥ rhoMax, sccs rhoMin rhoMax epsBulk rho = 0) ∧
    ∀ rho, 0 ≤ sccs rhoMin rhoMax epsBulk rho ∧ sccs rhoMin rhoMax epsBulk rho ≤ 1 := by
  have hd := sccs_deriv rhoMin rhoMax epsBulk h0 h1 he he1
  have hcont : Continuous (sccs rhoMin rhoMax epsBulk) := continuous_iff_continuousAt.2 fun x => (hd x).continuousAt
  have hlow : ∀ rho ≤ rhoMin, sccs rhoMin rhoMax epsBulk rho = 1 := by
    intro rho h
    unfold sccs; rw [if_neg (not_le.2 (h.trans_lt h1)), if_pos h]
  have hhigh : ∀ rho ≥ rhoMax, sccs rhoMin rhoMax epsBulk rho = 0 := by
    intro rho h
    unfold sccs; rw [if_pos h]
  have hden : 0 < Real.log (rhoMax / rhoMin) := Real.log_pos (by rw [lt_div_iff₀ h0]; linarith)
  have hst : ∀ t : ℝ, 0 < Real.log epsBulk * epsBulk ^ t / (epsBulk - 1) := by
    intro t
    have hp : 0 < epsBulk ^ t := Real.rpow_pos_of_pos he t
    rcases lt_or_gt_of_ne he1 with h | h
    · have := Real.log_neg he h
      exact div_pos_of_neg_of_neg (mul_neg_of_neg_of_pos this hp) (by linarith)
    · have := Real.log_pos h
      exact div_pos (mul_pos this hp) (by linarith)
  have hneg : ∀ rho, rhoMin < rho → rho < rhoMax → sccsGrad rhoMin rhoMax epsBulk rho 1 0 < 0 := by
    intro rho ha hb
    unfold sccsGrad
    rw [if_neg (not_le.2 hb), if_neg (not_le.2 ha)]
    simp only
    have hr : 0 < rho := h0.trans ha
    have hf0 : 0 < Real.log (rhoMax / rho) / Real.log (rhoMax / rhoMin) := div_pos (Real.log_pos (by rw [lt_div_iff₀ hr]; linarith)) hden
    have hf1 : Real.log (rhoMax / rho) / Real.log (rhoMax / rhoMin) < 1 := by
      rw [div_lt_one hden]
      apply Real.log_lt_log (div_pos (h0.trans h1) hr)
      exact div_lt_div_of_pos_left (h0.trans h1) h0 ha
    generalize Real.log (rhoMax / rho) / Real.log (rhoMax / rhoMin) = f at hf0 hf1
    have hs := hst (f - Real.sin (2 * Real.pi * f) / (2 * Real.pi))
    have hcos : Real.cos (2 * Real.pi * f) < 1 := by
      refine lt_of_le_of_ne (Real.cos_le_one _) fun hc => ?_
      rw [Real.cos_eq_one_iff_of_lt_of_lt (by nlinarith [Real.pi_pos]) (by nlinarith [Real.pi_pos])] at hc
      have := Real.pi_pos
      exact absurd hc (by positivity)
    have hfr : -1 / (rho * Real.log (rhoMax / rhoMin)) < 0 := div_neg_of_neg_of_pos (by norm_num) (by positivity)
    have h1c : 0 < 1 - Real.cos (2 * Real.pi * f) := by linarith
    have := mul_neg_of_pos_of_neg (mul_pos hs h1c) hfr
    linarith
  have hanti : Antitone (sccs rhoMin rhoMax epsBulk) := by
    refine antitone_of_deriv_nonpos (fun x => (hd x).differentiableAt) fun x => ?_
    rw [(hd x).deriv]
    by_cases ha : rhoMin < x
    · by_cases hb : x < rhoMax
      · exact (hneg x ha hb).le
      · unfold sccsGrad; rw [if_pos (not_lt.1 hb)]
    · unfold sccsGrad; rw [if_neg (not_le.2 ((not_lt.1 ha).trans_lt h1)), if_pos (not_lt.1 ha)]
  refine ⟨hcont, hanti, ?_, hlow, hhigh, ?_⟩
  · apply strictAntiOn_of_deriv_neg (convex_Icc _ _) hcont.continuousOn
    intro x hx
    rw [interior_Icc] at hx
    rw [(hd x).deriv]
    exact hneg x hx.1 hx.2
  · intro rho
    constructor
    · rcases le_total rho rhoMax with h | h
      · rw [← hhigh rhoMax le_rfl]; exact hanti h
      · rw [hhigh rho h]
    · rcases le_total rhoMin rho with h | h
      · rw [← hlow rhoMin le_rfl]; exact hanti h
      · rw [hlow rho h]

/-- The hypotheses hold for water (SCCS g09: density limits 0.0001 and 0.005, permittivity 78.36), and there is an energy with a gradient: the volume. -/
example : (0 : ℝ) < 0.0001 ∧ (0.0001 : ℝ) < 0.005 ∧ (78.36 : ℝ) ≠ 1 ∧ IsGradient (fun s : Fin 2 → ℝ => s 0 + s 1) (fun _ => 1) (fun _ => 1 / 2) := by
  refine ⟨by norm_num, by norm_num, by norm_num, ContinuousLinearMap.proj (R := ℝ) (φ := fun _ : Fin 2 => ℝ) 0 + ContinuousLinearMap.proj 1, ?_, ?_⟩
  · exact (ContinuousLinearMap.proj (R := ℝ) (φ := fun _ : Fin 2 => ℝ) 0 + ContinuousLinearMap.proj 1).hasFDerivAt
  · intro d
    simp [Fin.sum_univ_two]

end
end Jdftx.Cavity
