import Verif.Model.CoulombKernels
import Verif.Spec.CoulombKernels
import Verif.Lemmas.EwaldStress
import Verif.Lemmas.GGAInt
import Mathlib.Analysis.SpecialFunctions.Integrals.Basic
import Mathlib.Analysis.SpecialFunctions.Gaussian.FourierTransform
import Mathlib.MeasureTheory.Integral.IntervalIntegral.IntegrationByParts
import Mathlib.MeasureTheory.Integral.IntervalIntegral.FundThmCalculus

/-!
# Lemmas for C91: Fourier transforms
-/
namespace Jdftx.CoulK
noncomputable section
open M3 Ewald Real Filter Topology MeasureTheory

/-- Average of the cosine over directions. -/
theorem inner_cos (a : ℝ) (h : a ≠ 0) : ∫ t in (-1 : ℝ)..1, cos (a * t) = 2 * sin a / a := by
  have := intervalIntegral.integral_comp_mul_left (a := (-1 : ℝ)) (b := 1) (fun x => cos x) h
  rw [this, integral_cos]
  simp only [mul_neg, mul_one, sin_neg, smul_eq_mul]
  field_simp; ring

theorem ballFT_ne (φ : ℝ → ℝ) (Rc k : ℝ) (hk : k ≠ 0) : ballFT φ Rc k = 4 * π / k * ∫ r in (0 : ℝ)..Rc, r * φ r * sin (k * r) := by
  rw [ballFT, ← intervalIntegral.integral_const_mul]
  refine intervalIntegral.integral_congr fun r _ => ?_
  rw [intervalIntegral.integral_const_mul]
  by_cases hr : r = 0
  · subst hr; simp
  · rw [inner_cos _ (mul_ne_zero hk hr)]
    field_simp; ring

theorem ballFT_zero (φ : ℝ → ℝ) (Rc : ℝ) : ballFT φ Rc 0 = 4 * π * ∫ r in (0 : ℝ)..Rc, r * (r * φ r) := by
  rw [ballFT, ← intervalIntegral.integral_const_mul]
  refine intervalIntegral.integral_congr fun r _ => ?_
  simp only [zero_mul, cos_zero, mul_one, intervalIntegral.integral_const, smul_eq_mul]
  ring

/-- The Coulomb potential in a sphere. -/
theorem ballFT_coulomb_ne (Rc k : ℝ) (hk : k ≠ 0) : ballFT (fun r => 1 / r) Rc k = 4 * π * (1 - cos (Rc * k)) / k ^ 2 := by
  rw [ballFT_ne _ _ _ hk]
  have h1 : ∫ r in (0 : ℝ)..Rc, r * (1 / r) * sin (k * r) = ∫ r in (0 : ℝ)..Rc, sin (k * r) := by
    refine intervalIntegral.integral_congr fun r _ => ?_
    by_cases hr : r = 0
    · subst hr; simp
    · field_simp
  rw [h1, intervalIntegral.integral_comp_mul_left (fun x => sin x) hk, integral_sin]
  simp only [mul_zero, cos_zero, smul_eq_mul, mul_comm Rc k]
  field_simp

theorem ballFT_coulomb_zero (Rc : ℝ) : ballFT (fun r => 1 / r) Rc 0 = 2 * π * Rc * Rc := by
  rw [ballFT_zero]
  have h1 : ∫ r in (0 : ℝ)..Rc, r * (r * (1 / r)) = ∫ r in (0 : ℝ)..Rc, r := by
    refine intervalIntegral.integral_congr fun r _ => ?_
    by_cases hr : r = 0
    · subst hr; simp
    · field_simp
  rw [h1, integral_id]; ring

/-! ### Screened potential -/

theorem erfc_scaled_deriv (omega r : ℝ) :
    HasDerivAt (fun r => Smear.erfc (omega * r)) (-(2 / sqrt π * exp (-(omega * r) ^ 2)) * omega) r := by
  have h := (Smear.erfc_deriv (omega * r)).comp r ((hasDerivAt_id r).const_mul omega)
  refine h.congr_deriv ?_
  simp

theorem ballFT_erfc_ne (omega Rc k : ℝ) (hk : k ≠ 0) :
    ballFT (fun r => Smear.erfc (omega * r) / r) Rc k = 4 * π / k * ∫ r in (0 : ℝ)..Rc, Smear.erfc (omega * r) * sin (k * r) := by
  rw [ballFT_ne _ _ _ hk]
  congr 1
  refine intervalIntegral.integral_congr fun r _ => ?_
  by_cases hr : r = 0
  · subst hr; simp
  · field_simp

theorem ballFT_erfc_zero (omega Rc : ℝ) :
    ballFT (fun r => Smear.erfc (omega * r) / r) Rc 0 = 4 * π * ∫ r in (0 : ℝ)..Rc, r * Smear.erfc (omega * r) := by
  rw [ballFT_zero]
  congr 1
  refine intervalIntegral.integral_congr fun r _ => ?_
  by_cases hr : r = 0
  · subst hr; simp
  · field_simp

theorem sqrtpi_sq : sqrt π * sqrt π = π := mul_self_sqrt pi_pos.le

/-- Antiderivative of `r erfc(ω r)`. -/
theorem erfc_moment (omega Rc : ℝ) (ho : omega ≠ 0) :
    ∫ r in (0 : ℝ)..Rc, r * Smear.erfc (omega * r) = Rc ^ 2 / 2 * Smear.erfc (omega * Rc)
      - Rc / (2 * omega * sqrt π) * exp (-(omega * Rc) ^ 2) + 1 / (4 * omega ^ 2) * (1 - Smear.erfc (omega * Rc)) := by
  have hsp : sqrt π ≠ 0 := (sqrt_pos.2 pi_pos).ne'
  have hd : ∀ r ∈ Set.uIcc 0 Rc, HasDerivAt (fun r => r ^ 2 / 2 * Smear.erfc (omega * r)
      - r / (2 * omega * sqrt π) * exp (-(omega * r) ^ 2) + 1 / (4 * omega ^ 2) * (1 - Smear.erfc (omega * r))) (r * Smear.erfc (omega * r)) r := by
    intro r _
    have h1 := erfc_scaled_deriv omega r
    have h2 : HasDerivAt (fun r : ℝ => exp (-(omega * r) ^ 2)) (exp (-(omega * r) ^ 2) * (-(2 * (omega * r) * omega))) r := by
      have := (((hasDerivAt_id r).const_mul omega).pow 2).neg.exp
      refine this.congr_deriv ?_
      simp
    have h3 := (hasDerivAt_id r)
    refine ((((h3.pow 2).div_const 2).mul h1).sub ((h3.div_const (2 * omega * sqrt π)).mul h2) |>.add ((h1.const_sub 1).const_mul (1 / (4 * omega ^ 2)))).congr_deriv ?_
    simp only [id, Nat.cast_ofNat, Pi.pow_apply]
    generalize exp (-(omega * r) ^ 2) = E
    generalize Smear.erfc (omega * r) = C
    field_simp
    ring
  have hc : Continuous fun r : ℝ => r * Smear.erfc (omega * r) := by
    have := Smear.erfc_continuous; fun_prop
  rw [intervalIntegral.integral_eq_sub_of_hasDerivAt hd (hc.intervalIntegrable _ _)]
  simp [GGA.erfc_zero]

/-- By parts: the sine transform of `erfc(ω r)` over a finite range. -/
theorem erfc_sine (omega k Rc : ℝ) (hk : k ≠ 0) :
    ∫ r in (0 : ℝ)..Rc, Smear.erfc (omega * r) * sin (k * r) = (1 - Smear.erfc (omega * Rc) * cos (k * Rc)) / k
      - 2 * omega / (sqrt π * k) * ∫ r in (0 : ℝ)..Rc, exp (-(omega * r) ^ 2) * cos (k * r) := by
  have hu : ∀ r ∈ Set.uIcc 0 Rc, HasDerivAt (fun r => Smear.erfc (omega * r)) (-(2 / sqrt π * exp (-(omega * r) ^ 2)) * omega) r :=
    fun r _ => erfc_scaled_deriv omega r
  have hv : ∀ r ∈ Set.uIcc 0 Rc, HasDerivAt (fun r => -cos (k * r) / k) (sin (k * r)) r := by
    intro r _
    have := (((hasDerivAt_id r).const_mul k).cos.neg).div_const k
    refine this.congr_deriv ?_
    simp; field_simp
  have h := intervalIntegral.integral_mul_deriv_eq_deriv_mul hu hv
    ((by fun_prop : Continuous fun r : ℝ => -(2 / sqrt π * exp (-(omega * r) ^ 2)) * omega).intervalIntegrable _ _)
    ((by fun_prop : Continuous fun r : ℝ => sin (k * r)).intervalIntegrable _ _)
  rw [h, ← intervalIntegral.integral_const_mul]
  have e : ∀ r : ℝ, -(2 / sqrt π * exp (-(omega * r) ^ 2)) * omega * (-cos (k * r) / k)
      = 2 * omega / (sqrt π * k) * (exp (-(omega * r) ^ 2) * cos (k * r)) := by
    intro r
    have hsp : sqrt π ≠ 0 := (sqrt_pos.2 pi_pos).ne'
    field_simp
  simp only [e, mul_zero, cos_zero, GGA.erfc_zero]
  ring

/-- The Fourier transform of a Gaussian. -/
theorem gauss_cos (omega k : ℝ) (ho : 0 < omega) :
    ∫ r : ℝ, exp (-(omega * r) ^ 2) * cos (k * r) = sqrt π / omega * exp (-(k ^ 2 / (4 * omega ^ 2))) := by
  have hb : 0 < (((omega ^ 2 : ℝ) : ℂ)).re := by rw [Complex.ofReal_re]; positivity
  have h := fourierIntegral_gaussian hb (k : ℂ)
  have hint : Integrable fun x : ℝ => Complex.exp (Complex.I * (k : ℂ) * x) * Complex.exp (-((omega ^ 2 : ℝ) : ℂ) * x ^ 2) := by
    have := GaussianFourier.integrable_cexp_neg_mul_sq_add_real_mul_I hb 0
    have hg := integrable_cexp_quadratic (b := ((omega ^ 2 : ℝ) : ℂ)) hb (Complex.I * (k : ℂ)) 0
    refine hg.congr (Eventually.of_forall fun x => ?_)
    simp only
    rw [← Complex.exp_add]; congr 1; ring
  have hre := congrArg Complex.re h
  have h2 : (∫ x : ℝ, Complex.exp (Complex.I * (k : ℂ) * x) * Complex.exp (-((omega ^ 2 : ℝ) : ℂ) * x ^ 2)).re
      = ∫ x : ℝ, (Complex.exp (Complex.I * (k : ℂ) * x) * Complex.exp (-((omega ^ 2 : ℝ) : ℂ) * x ^ 2)).re := by
    exact (integral_re hint).symm
  rw [h2] at hre
  have e1 : ∀ x : ℝ, (Complex.exp (Complex.I * (k : ℂ) * x) * Complex.exp (-((omega ^ 2 : ℝ) : ℂ) * x ^ 2)).re
      = exp (-(omega * x) ^ 2) * cos (k * x) := by
    intro x
    have a1 : Complex.I * (k : ℂ) * x = ((k * x : ℝ) : ℂ) * Complex.I := by push_cast; ring
    have a2 : -((omega ^ 2 : ℝ) : ℂ) * (x : ℂ) ^ 2 = ((-(omega * x) ^ 2 : ℝ) : ℂ) := by push_cast; ring
    rw [a1, a2, ← Complex.ofReal_exp, Complex.re_mul_ofReal, Complex.exp_ofReal_mul_I_re]
    ring
  simp only [e1] at hre
  rw [hre]
  have a3 : ((π : ℂ) / ((omega ^ 2 : ℝ) : ℂ)) = ((π / omega ^ 2 : ℝ) : ℂ) := by push_cast; rfl
  have a4 : (-(k : ℂ) ^ 2 / (4 * ((omega ^ 2 : ℝ) : ℂ))) = ((-(k ^ 2 / (4 * omega ^ 2)) : ℝ) : ℂ) := by push_cast; ring
  have a5 : ((1 : ℂ) / 2) = ((1 / 2 : ℝ) : ℂ) := by push_cast; rfl
  rw [a3, a4, a5, ← Complex.ofReal_cpow (by positivity), ← Complex.ofReal_exp, ← Complex.ofReal_mul, Complex.ofReal_re]
  congr 1
  rw [← sqrt_eq_rpow, sqrt_div pi_pos.le, sqrt_sq ho.le]

theorem gauss_cos_int (omega k : ℝ) (ho : 0 < omega) : Integrable fun r : ℝ => exp (-(omega * r) ^ 2) * cos (k * r) := by
  have h := (integrable_exp_neg_mul_sq (show 0 < omega ^ 2 by positivity))
  refine h.mono' (by fun_prop) (Eventually.of_forall fun r => ?_)
  rw [Real.norm_eq_abs, abs_mul, abs_of_pos (exp_pos _)]
  have : exp (-(omega * r) ^ 2) = exp (-omega ^ 2 * r ^ 2) := by congr 1; ring
  rw [this]
  exact mul_le_of_le_one_right (exp_pos _).le (abs_cos_le_one _)

theorem gauss_cos_half (omega k : ℝ) (ho : 0 < omega) :
    Tendsto (fun Rc => ∫ r in (0 : ℝ)..Rc, exp (-(omega * r) ^ 2) * cos (k * r)) atTop
      (𝓝 (sqrt π / (2 * omega) * exp (-(k ^ 2 / (4 * omega ^ 2))))) := by
  have hi := gauss_cos_int omega k ho
  have h := intervalIntegral_tendsto_integral_Ioi 0 hi.integrableOn tendsto_id
  have e : ∫ r in Set.Ioi (0 : ℝ), exp (-(omega * r) ^ 2) * cos (k * r) = sqrt π / (2 * omega) * exp (-(k ^ 2 / (4 * omega ^ 2))) := by
    have h2 := integral_comp_abs (f := fun r : ℝ => exp (-(omega * r) ^ 2) * cos (k * r))
    have h3 : ∀ x : ℝ, exp (-(omega * |x|) ^ 2) * cos (k * |x|) = exp (-(omega * x) ^ 2) * cos (k * x) := by
      intro x
      rcases abs_choice x with hx | hx <;> rw [hx]
      congr 1
      · congr 1; ring
      · rw [mul_neg, cos_neg]
    simp only [h3] at h2
    rw [gauss_cos omega k ho] at h2
    have : sqrt π / (2 * omega) * exp (-(k ^ 2 / (4 * omega ^ 2))) = (sqrt π / omega * exp (-(k ^ 2 / (4 * omega ^ 2)))) / 2 := by
      have := ho.ne'; field_simp
    rw [this, h2]; ring
  rw [e] at h
  exact h

/-- The screened potential, over all space. -/
theorem erfc_tendsto (omega k : ℝ) (ho : 0 < omega) (hk : k ≠ 0) :
    Tendsto (fun Rc => ballFT (fun r => Smear.erfc (omega * r) / r) Rc k) atTop (𝓝 (4 * π * (1 - exp (-(k ^ 2 / (4 * omega ^ 2)))) / k ^ 2)) := by
  have hsp : sqrt π ≠ 0 := (sqrt_pos.2 pi_pos).ne'
  simp only [ballFT_erfc_ne _ _ _ hk, erfc_sine _ _ _ hk]
  have h1 : Tendsto (fun Rc => Smear.erfc (omega * Rc) * cos (k * Rc)) atTop (𝓝 0) := by
    have ht : Tendsto (fun Rc => Smear.erfc (omega * Rc)) atTop (𝓝 0) := Smear.erfc_top.comp (tendsto_id.const_mul_atTop ho)
    refine squeeze_zero_norm (fun Rc => ?_) (tendsto_norm_zero.comp ht)
    rw [norm_mul]
    exact mul_le_of_le_one_right (norm_nonneg _) (abs_cos_le_one _)
  have h2 := ((h1.const_sub 1).div_const k).sub ((gauss_cos_half omega k ho).const_mul (2 * omega / (sqrt π * k)))
  convert h2.const_mul (4 * π / k) using 2
  have := ho.ne'
  field_simp
  ring

end
end Jdftx.CoulK
