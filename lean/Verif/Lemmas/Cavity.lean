import Verif.Model.Cavity
import Verif.Lemmas.Smear
import Mathlib.Analysis.SpecialFunctions.Pow.Deriv
import Mathlib.Analysis.SpecialFunctions.Log.Deriv
import Mathlib.Analysis.SpecialFunctions.Trigonometric.Deriv
import Mathlib.Analysis.SpecialFunctions.Sqrt
import Mathlib.Analysis.Calculus.Deriv.MeanValue
import Mathlib.Analysis.Calculus.FDeriv.Extend

/-! # Auxiliary results for cavity shape functions -/
namespace Jdftx.Cavity
open Filter Topology
noncomputable section

theorem erfc_anti : StrictAnti Smear.erfc := by
  refine strictAnti_of_deriv_neg fun x => ?_
  rw [(Smear.erfc_deriv x).deriv]
  have := Real.exp_pos (-x ^ 2)
  have := Real.sqrt_pos.2 Real.pi_pos
  have : 0 < 2 / Real.sqrt Real.pi * Real.exp (-x ^ 2) := by positivity
  linarith

theorem erfc_pos (x : ℝ) : 0 < Smear.erfc x :=
  (erfc_anti.antitone.le_of_tendsto Smear.erfc_top (x + 1)).trans_lt (erfc_anti (by linarith))

theorem erfc_lt_two (x : ℝ) : Smear.erfc x < 2 := by
  have := erfc_pos (-x)
  rw [Smear.erfc_neg] at this
  linarith

theorem erfc_zero : Smear.erfc 0 = 1 := by simp [Smear.erfc]

/-! ### Shape function of the electron density -/

/-- Derivative of the shape function away from zero. -/
def slope (nc sigma n : ℝ) : ℝ := -(Real.exp (-(Real.log (|n| / nc)) ^ 2 / (2 * sigma ^ 2)) / (sigma * Real.sqrt (2 * Real.pi) * n))

theorem shape_deriv (nc sigma n : ℝ) (hnc : 0 < nc) (hs : 0 < sigma) (hn : n ≠ 0) : HasDerivAt (shape nc sigma) (slope nc sigma n) n := by
  have hlog : HasDerivAt (fun n : ℝ => Real.log (|n| / nc)) (1 / n) n := by
    have e : (fun n : ℝ => Real.log (|n| / nc)) =ᶠ[𝓝 n] fun n => Real.log n - Real.log nc := by
      filter_upwards [isOpen_ne.mem_nhds hn] with m hm
      rw [Real.log_div (abs_ne_zero.2 hm) hnc.ne', Real.log_abs]
    refine HasDerivAt.congr_of_eventuallyEq ?_ e
    simpa using (Real.hasDerivAt_log hn).sub_const (Real.log nc)
  have h1 := ((hlog.const_mul (Real.sqrt 0.5)).div_const sigma)
  have h2 := ((Smear.erfc_deriv _).comp n h1).mul_const 0.5
  have e : shape nc sigma =ᶠ[𝓝 n] fun n => (Smear.erfc ∘ fun n => Real.sqrt 0.5 * Real.log (|n| / nc) / sigma) n * 0.5 := by
    filter_upwards [isOpen_ne.mem_nhds hn] with m hm
    unfold shape; rw [if_neg hm]; rfl
  refine (h2.congr_of_eventuallyEq e).congr_deriv ?_
  unfold slope
  have q : Real.sqrt 0.5 ^ 2 = 1 / 2 := by rw [Real.sq_sqrt (by norm_num)]; norm_num
  have e1 : -(Real.sqrt 0.5 * Real.log (|n| / nc) / sigma) ^ 2 = -(Real.log (|n| / nc)) ^ 2 / (2 * sigma ^ 2) := by
    rw [div_pow, mul_pow, q]; field_simp
  have e2 : Real.sqrt (2 * Real.pi) = Real.sqrt Real.pi / Real.sqrt 0.5 := by
    rw [← Real.sqrt_div' _ (by norm_num)]; congr 1; field_simp; norm_num
  have h5 : Real.sqrt 0.5 ≠ 0 := (Real.sqrt_pos.2 (by norm_num)).ne'
  have hp : Real.sqrt Real.pi ≠ 0 := (Real.sqrt_pos.2 Real.pi_pos).ne'
  rw [e1, e2]
  field_simp
  norm_num

theorem slope_code (nc sigma n : ℝ) (hnc : 0 < nc) (hs : 0 < sigma) (hn : n ≠ 0) :
    (-1.0 / (nc * sigma * Real.sqrt (2 * Real.pi))) * Real.exp (0.5 * (sigma ^ 2 - (Real.log (|n| / nc) / sigma + sigma) ^ 2))
      = (|n| / n)⁻¹ * slope nc sigma n := by
  have hpos : 0 < |n| / nc := div_pos (abs_pos.2 hn) hnc
  have e : 0.5 * (sigma ^ 2 - (Real.log (|n| / nc) / sigma + sigma) ^ 2) = -(Real.log (|n| / nc)) ^ 2 / (2 * sigma ^ 2) - Real.log (|n| / nc) := by
    field_simp; ring
  rw [e, Real.exp_sub, Real.exp_log hpos]
  unfold slope
  have hp : Real.sqrt (2 * Real.pi) ≠ 0 := (Real.sqrt_pos.2 (by positivity)).ne'
  have ha : |n| ≠ 0 := abs_ne_zero.2 hn
  field_simp
  norm_num

/-- The slope vanishes faster than any power at zero density. -/
theorem slope_zero (nc sigma : ℝ) (hnc : 0 < nc) (hs : 0 < sigma) : Tendsto (slope nc sigma) (𝓝[≠] 0) (𝓝 0) := by
  have hL : Tendsto (fun n : ℝ => Real.log (|n| / nc)) (𝓝[≠] 0) atBot := by
    have e : (fun n : ℝ => Real.log (|n| / nc)) =ᶠ[𝓝[≠] 0] fun n => Real.log n + -Real.log nc := by
      filter_upwards [self_mem_nhdsWithin] with m hm
      rw [Real.log_div (abs_ne_zero.2 hm) hnc.ne', Real.log_abs]; ring
    rw [tendsto_congr' e]
    exact tendsto_atBot_add_const_right _ _ Real.tendsto_log_nhdsNE_zero
  have hexp : Tendsto (fun L : ℝ => Real.exp (-L ^ 2 / (2 * sigma ^ 2) - L)) atBot (𝓝 0) := by
    apply Real.tendsto_exp_atBot.comp
    have h1 : Tendsto (fun L : ℝ => (-L / (2 * sigma ^ 2) - 1) * L) atBot atBot := by
      apply Tendsto.atTop_mul_atBot₀
      · have : Tendsto (fun L : ℝ => -L / (2 * sigma ^ 2)) atBot atTop := tendsto_neg_atBot_atTop.atTop_div_const (by positivity)
        exact tendsto_atTop_add_const_right _ _ this
      · exact tendsto_id
    refine h1.congr fun L => ?_
    ring
  rw [tendsto_zero_iff_norm_tendsto_zero]
  have e : (fun n => ‖slope nc sigma n‖) =ᶠ[𝓝[≠] 0] fun n =>
      (1 / (nc * sigma * Real.sqrt (2 * Real.pi))) * (fun L : ℝ => Real.exp (-L ^ 2 / (2 * sigma ^ 2) - L)) (Real.log (|n| / nc)) := by
    filter_upwards [self_mem_nhdsWithin] with n hn
    have hn : n ≠ 0 := hn
    have hpos : 0 < |n| / nc := div_pos (abs_pos.2 hn) hnc
    have hp : 0 < Real.sqrt (2 * Real.pi) := Real.sqrt_pos.2 (by positivity)
    rw [Real.exp_sub, Real.exp_log hpos]
    unfold slope
    rw [Real.norm_eq_abs, abs_neg, abs_div, abs_of_pos (Real.exp_pos _), abs_mul, abs_of_pos (mul_pos hs hp)]
    have ha : |n| ≠ 0 := abs_ne_zero.2 hn
    field_simp
  rw [tendsto_congr' e]
  simpa using (hexp.comp hL).const_mul (1 / (nc * sigma * Real.sqrt (2 * Real.pi)))

theorem shape_continuous_zero (nc sigma : ℝ) (hnc : 0 < nc) (hs : 0 < sigma) : ContinuousAt (shape nc sigma) 0 := by
  rw [← continuousWithinAt_compl_self]
  unfold ContinuousWithinAt
  have h0 : shape nc sigma 0 = 1 := by simp [shape]
  rw [h0]
  have e : shape nc sigma =ᶠ[𝓝[{0}ᶜ] 0] fun n => Smear.erfc (Real.sqrt 0.5 * Real.log (|n| / nc) / sigma) * 0.5 := by
    filter_upwards [self_mem_nhdsWithin] with m hm
    have hm : m ≠ 0 := hm
    unfold shape; rw [if_neg hm]
  rw [tendsto_congr' e]
  have hL : Tendsto (fun n : ℝ => Real.log (|n| / nc)) (𝓝[≠] 0) atBot := by
    have e : (fun n : ℝ => Real.log (|n| / nc)) =ᶠ[𝓝[≠] 0] fun n => Real.log n + -Real.log nc := by
      filter_upwards [self_mem_nhdsWithin] with m hm
      rw [Real.log_div (abs_ne_zero.2 hm) hnc.ne', Real.log_abs]; ring
    rw [tendsto_congr' e]
    exact tendsto_atBot_add_const_right _ _ Real.tendsto_log_nhdsNE_zero
  have h1 : Tendsto (fun n : ℝ => Real.sqrt 0.5 * Real.log (|n| / nc) / sigma) (𝓝[≠] 0) atBot :=
    (hL.const_mul_atBot (Real.sqrt_pos.2 (by norm_num))).atBot_div_const hs
  have h2 := (Smear.erfc_bot.comp h1).mul_const 0.5
  have : (2 : ℝ) * 0.5 = 1 := by norm_num
  rw [this] at h2
  exact h2

theorem shape_deriv_zero (nc sigma : ℝ) (hnc : 0 < nc) (hs : 0 < sigma) : HasDerivAt (shape nc sigma) 0 0 := by
  have hg : ContinuousAt (fun n => if n = 0 then 0 else slope nc sigma n) 0 := by
    rw [← continuousWithinAt_compl_self]
    unfold ContinuousWithinAt
    simp only [if_true]
    refine (slope_zero nc sigma hnc hs).congr' ?_
    filter_upwards [self_mem_nhdsWithin] with m hm
    have hm : m ≠ 0 := hm
    rw [if_neg hm]
  have := hasDerivAt_of_hasDerivAt_of_ne (f := shape nc sigma) (g := fun n => if n = 0 then 0 else slope nc sigma n) (x := 0)
    (fun y hy => by simp only [if_neg hy]; exact shape_deriv nc sigma y hnc hs hy) (shape_continuous_zero nc sigma hnc hs) hg
  simpa using this

/-! ### SCCS -/

/-- The switching function of the logarithm. -/
def tOf (f : ℝ) : ℝ := f - Real.sin (2 * Real.pi * f) / (2 * Real.pi)

/-- The smooth expression used between the limits. -/
def smooth (rhoMin rhoMax epsBulk rho : ℝ) : ℝ := (epsBulk ^ tOf (Real.log (rhoMax / rho) / Real.log (rhoMax / rhoMin)) - 1) / (epsBulk - 1)

/-- Its derivative as the code computes it. -/
def smoothGrad (rhoMin rhoMax epsBulk rho : ℝ) : ℝ :=
  Real.log epsBulk * epsBulk ^ tOf (Real.log (rhoMax / rho) / Real.log (rhoMax / rhoMin)) / (epsBulk - 1)
    * (1 - Real.cos (2 * Real.pi * (Real.log (rhoMax / rho) / Real.log (rhoMax / rhoMin)))) * (-1 / (rho * Real.log (rhoMax / rhoMin)))

theorem tOf_deriv (f : ℝ) : HasDerivAt tOf (1 - Real.cos (2 * Real.pi * f)) f := by
  have h := (hasDerivAt_id f).sub ((((hasDerivAt_id f).const_mul (2 * Real.pi)).sin).div_const (2 * Real.pi))
  refine h.congr_deriv ?_
  have := Real.pi_pos
  simp only [id, mul_one]
  field_simp

theorem smooth_deriv (rhoMin rhoMax epsBulk rho : ℝ) (h0 : 0 < rhoMin) (h1 : rhoMin < rhoMax) (he : 0 < epsBulk) (hr : 0 < rho) :
    HasDerivAt (smooth rhoMin rhoMax epsBulk) (smoothGrad rhoMin rhoMax epsBulk rho) rho := by
  have hden : 0 < Real.log (rhoMax / rhoMin) := Real.log_pos (by rw [lt_div_iff₀ h0]; linarith)
  have hmax : 0 < rhoMax := h0.trans h1
  have hf : HasDerivAt (fun rho => Real.log (rhoMax / rho) / Real.log (rhoMax / rhoMin)) (-1 / (rho * Real.log (rhoMax / rhoMin))) rho := by
    have h := (((hasDerivAt_const rho rhoMax).div (hasDerivAt_id rho) hr.ne').log (by simp; exact ⟨hmax.ne', hr.ne'⟩)).div_const (Real.log (rhoMax / rhoMin))
    refine h.congr_deriv ?_
    simp only [id, Pi.div_apply]
    field_simp
    ring
  have h := ((((tOf_deriv _).comp rho hf).const_rpow he).sub_const 1).div_const (epsBulk - 1)
  refine h.congr_deriv ?_
  unfold smoothGrad
  simp only [Function.comp]
  ring

theorem sccs_inside (rhoMin rhoMax epsBulk rho : ℝ) (h1 : rhoMin < rho) (h2 : rho < rhoMax) :
    sccs rhoMin rhoMax epsBulk rho = smooth rhoMin rhoMax epsBulk rho := by
  unfold sccs; rw [if_neg (not_le.2 h2), if_neg (not_le.2 h1)]; rfl

theorem smooth_max (rhoMin rhoMax epsBulk : ℝ) (h0 : 0 < rhoMax) : smooth rhoMin rhoMax epsBulk rhoMax = 0 ∧ smoothGrad rhoMin rhoMax epsBulk rhoMax = 0 := by
  unfold smooth smoothGrad
  rw [div_self h0.ne']
  simp [tOf]

theorem smooth_min (rhoMin rhoMax epsBulk : ℝ) (h0 : 0 < rhoMin) (h1 : rhoMin < rhoMax) (he : epsBulk ≠ 1) :
    smooth rhoMin rhoMax epsBulk rhoMin = 1 ∧ smoothGrad rhoMin rhoMax epsBulk rhoMin = 0 := by
  have hden : 0 < Real.log (rhoMax / rhoMin) := Real.log_pos (by rw [lt_div_iff₀ h0]; linarith)
  unfold smooth smoothGrad
  rw [div_self hden.ne']
  have : epsBulk - 1 ≠ 0 := sub_ne_zero.2 he
  simp [tOf, this]

theorem sccs_deriv (rhoMin rhoMax epsBulk : ℝ) (h0 : 0 < rhoMin) (h1 : rhoMin < rhoMax) (he : 0 < epsBulk) (he1 : epsBulk ≠ 1) (rho : ℝ) :
    HasDerivAt (sccs rhoMin rhoMax epsBulk) (sccsGrad rhoMin rhoMax epsBulk rho 1 0) rho := by
  have hmax : 0 < rhoMax := h0.trans h1
  rcases lt_trichotomy rho rhoMax with hlt | heq | hgt
  · rcases lt_trichotomy rhoMin rho with hlt' | heq' | hgt'
    · have e : sccs rhoMin rhoMax epsBulk =ᶠ[𝓝 rho] smooth rhoMin rhoMax epsBulk := by
        filter_upwards [Ioo_mem_nhds hlt' hlt] with x hx
        exact sccs_inside _ _ _ _ hx.1 hx.2
      refine ((smooth_deriv rhoMin rhoMax epsBulk rho h0 h1 he (h0.trans hlt')).congr_of_eventuallyEq e).congr_deriv ?_
      unfold sccsGrad
      rw [if_neg (not_le.2 hlt), if_neg (not_le.2 hlt')]
      unfold smoothGrad tOf
      simp only
      ring
    · subst heq'
      have hz : sccsGrad rhoMin rhoMax epsBulk rhoMin 1 0 = 0 := by
        unfold sccsGrad; rw [if_neg (not_le.2 hlt), if_pos le_rfl]
      rw [hz]
      obtain ⟨v, d⟩ := smooth_min rhoMin rhoMax epsBulk h0 h1 he1
      have hs := smooth_deriv rhoMin rhoMax epsBulk rhoMin h0 h1 he h0
      rw [d] at hs
      have hval : sccs rhoMin rhoMax epsBulk rhoMin = 1 := by
        unfold sccs; rw [if_neg (not_le.2 hlt), if_pos le_rfl]
      have right : HasDerivWithinAt (sccs rhoMin rhoMax epsBulk) 0 (Set.Ici rhoMin) rhoMin := by
        refine hs.hasDerivWithinAt.congr_of_eventuallyEq ?_ (by rw [hval, v])
        filter_upwards [self_mem_nhdsWithin, mem_nhdsWithin_of_mem_nhds (Iio_mem_nhds hlt)] with x hx hx'
        rcases eq_or_lt_of_le (show rhoMin ≤ x from hx) with rfl | hx
        · rw [hval, v]
        · exact sccs_inside _ _ _ _ hx hx'
      have left : HasDerivWithinAt (sccs rhoMin rhoMax epsBulk) 0 (Set.Iic rhoMin) rhoMin := by
        refine (hasDerivAt_const rhoMin (1 : ℝ)).hasDerivWithinAt.congr ?_ hval
        intro x hx
        have hx : x ≤ rhoMin := hx
        unfold sccs; rw [if_neg (not_le.2 (hx.trans_lt hlt)), if_pos hx]
      have := left.union right
      rw [Set.Iic_union_Ici] at this
      exact hasDerivWithinAt_univ.1 this
    · have e : sccs rhoMin rhoMax epsBulk =ᶠ[𝓝 rho] fun _ => 1 := by
        filter_upwards [Iio_mem_nhds hgt'] with x hx
        have hx : x < rhoMin := hx
        unfold sccs; rw [if_neg (not_le.2 (hx.trans h1)), if_pos hx.le]
      have hz : sccsGrad rhoMin rhoMax epsBulk rho 1 0 = 0 := by
        unfold sccsGrad; rw [if_neg (not_le.2 hlt), if_pos hgt'.le]
      rw [hz]
      exact (hasDerivAt_const rho (1 : ℝ)).congr_of_eventuallyEq e
  · subst heq
    have hz : sccsGrad rhoMin rho epsBulk rho 1 0 = 0 := by
      unfold sccsGrad; rw [if_pos le_rfl]
    rw [hz]
    obtain ⟨v, d⟩ := smooth_max rhoMin rho epsBulk hmax
    have hs := smooth_deriv rhoMin rho epsBulk rho h0 h1 he hmax
    rw [d] at hs
    have hval : sccs rhoMin rho epsBulk rho = 0 := by
      unfold sccs; rw [if_pos le_rfl]
    have left : HasDerivWithinAt (sccs rhoMin rho epsBulk) 0 (Set.Iic rho) rho := by
      refine hs.hasDerivWithinAt.congr_of_eventuallyEq ?_ (by rw [hval, v])
      filter_upwards [self_mem_nhdsWithin, mem_nhdsWithin_of_mem_nhds (Ioi_mem_nhds h1)] with x hx hx'
      rcases eq_or_lt_of_le (show x ≤ rho from hx) with rfl | hx
      · rw [hval, v]
      · exact sccs_inside _ _ _ _ hx' hx
    have right : HasDerivWithinAt (sccs rhoMin rho epsBulk) 0 (Set.Ici rho) rho := by
      refine (hasDerivAt_const rho (0 : ℝ)).hasDerivWithinAt.congr ?_ hval
      intro x hx
      have hx : rho ≤ x := hx
      unfold sccs; rw [if_pos hx]
    have := left.union right
    rw [Set.Iic_union_Ici] at this
    exact hasDerivWithinAt_univ.1 this
  · have e : sccs rhoMin rhoMax epsBulk =ᶠ[𝓝 rho] fun _ => 0 := by
      filter_upwards [Ioi_mem_nhds hgt] with x hx
      have hx : rhoMax < x := hx
      unfold sccs; rw [if_pos hx.le]
    have hz : sccsGrad rhoMin rhoMax epsBulk rho 1 0 = 0 := by
      unfold sccsGrad; rw [if_pos hgt.le]
    rw [hz]
    exact (hasDerivAt_const rho (0 : ℝ)).congr_of_eventuallyEq e

end
end Jdftx.Cavity
