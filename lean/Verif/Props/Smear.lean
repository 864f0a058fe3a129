import Verif.Lemmas.Smear

/-!
# Smearing functions: occupation, its derivative and entropy are consistent (C65)
-/
namespace Jdftx.Smear
noncomputable section
open Filter Topology

theorem xOf_deriv (σ mu eps : ℝ) : HasDerivAt (fun e => xOf σ mu e) (1 / (2 * σ)) eps := by
  unfold xOf
  exact ((hasDerivAt_id eps).sub_const mu).div_const (2 * σ)

theorem expsq_deriv (x : ℝ) : HasDerivAt (fun x : ℝ => Real.exp (-x * x)) (-(2 * x) * Real.exp (-x * x)) x := by
  have h : HasDerivAt (fun x : ℝ => -x * x) (-(2 * x)) x := by
    have := ((hasDerivAt_id x).neg.mul (hasDerivAt_id x))
    refine this.congr_deriv ?_
    simp; ring
  refine h.exp.congr_deriv ?_
  ring

theorem erfc_deriv' (x : ℝ) : HasDerivAt erfc (-(2 / Real.sqrt Real.pi * Real.exp (-x * x))) x := by
  have := erfc_deriv x
  have e : -x ^ 2 = -x * x := by ring
  rwa [e] at this

theorem sqrt_half : Real.sqrt 0.5 = Real.sqrt 2 / 2 := by
  rw [show (0.5 : ℝ) = 2 / 2 ^ 2 by norm_num, Real.sqrt_div (by norm_num), Real.sqrt_sq (by norm_num)]

theorem sqrt_two_pi : Real.sqrt (2 * Real.pi) = Real.sqrt 2 * Real.sqrt Real.pi := Real.sqrt_mul (by norm_num) _

theorem tanh_deriv (x : ℝ) : HasDerivAt Real.tanh (1 / Real.cosh x ^ 2) x := by
  have hc : Real.cosh x ≠ 0 := (Real.cosh_pos x).ne'
  have h := (Real.hasDerivAt_sinh x).div (Real.hasDerivAt_cosh x) hc
  have e : Real.tanh = fun x => Real.sinh x / Real.cosh x := by funext y; exact Real.tanh_eq_sinh_div_cosh y
  rw [e]
  refine h.congr_deriv ?_
  have := Real.cosh_sq x
  congr 1
  nlinarith

/-- `smearPrime` is the derivative of `smear` with respect to the eigenvalue. -/
theorem C65_derivative (k : Kind) (σ mu eps : ℝ) (hσ : σ ≠ 0) :
    HasDerivAt (fun e => smear k σ mu e) (smearPrime k σ mu eps) eps := by
  have hx := xOf_deriv σ mu eps
  have hp := sqrtpi_ne
  cases k with
  | fermi =>
    have := (((tanh_deriv (xOf σ mu eps)).comp eps hx).const_sub 1).const_mul 0.5
    refine this.congr_deriv ?_
    unfold smearPrime
    have hc : Real.cosh (xOf σ mu eps) ≠ 0 := (Real.cosh_pos _).ne'
    simp only
    field_simp
    norm_num
  | gauss =>
    have := ((erfc_deriv' (xOf σ mu eps)).comp eps hx).const_mul 0.5
    refine this.congr_deriv ?_
    unfold smearPrime
    simp only
    field_simp
    ring
  | mp1 =>
    have h1 := ((erfc_deriv' (xOf σ mu eps)).const_mul 0.5).sub (((hasDerivAt_id (xOf σ mu eps)).mul (expsq_deriv (xOf σ mu eps))).div_const (2 * Real.sqrt Real.pi))
    have := h1.comp eps hx
    refine this.congr_deriv ?_
    unfold smearPrime
    simp only [id]
    field_simp
    ring
  | cold =>
    have hy : HasDerivAt (fun e => xOf σ mu e + Real.sqrt 0.5) (1 / (2 * σ)) eps := hx.add_const _
    have h1 := ((erfc_deriv' (xOf σ mu eps + Real.sqrt 0.5)).const_mul 0.5).add ((expsq_deriv (xOf σ mu eps + Real.sqrt 0.5)).div_const (Real.sqrt (2 * Real.pi)))
    have := h1.comp eps hy
    refine (this.congr_deriv ?_).congr_of_eventuallyEq (Eventually.of_forall fun e => ?_)
    · unfold smearPrime
      simp only
      have h2 : Real.sqrt 2 ≠ 0 := by positivity
      have h3 : Real.sqrt 2 * Real.sqrt 2 = 2 := Real.mul_self_sqrt (by norm_num)
      have e : -(xOf σ mu eps + Real.sqrt 0.5) ^ 2 = -(xOf σ mu eps + Real.sqrt 0.5) * (xOf σ mu eps + Real.sqrt 0.5) := by ring
      rw [e, sqrt_two_pi]
      generalize Real.exp (-(xOf σ mu eps + Real.sqrt 0.5) * (xOf σ mu eps + Real.sqrt 0.5)) = E
      rw [sqrt_half]
      generalize xOf σ mu eps = x
      field_simp
      linear_combination (E * x) * h3
    · show smear .cold σ mu e = _
      unfold smear occ
      simp only [Function.comp, Pi.add_apply]
      have e2 : -(xOf σ mu e + Real.sqrt 0.5) ^ 2 = -(xOf σ mu e + Real.sqrt 0.5) * (xOf σ mu e + Real.sqrt 0.5) := by ring
      rw [e2]

/-- The entropy is consistent with the occupations: its change with the eigenvalue is that of the occupation, times `(eps-mu)/width`. For Fermi
smearing this holds as long as neither `f` nor `1-f` is below the cut-off 1e-300. -/
theorem C65_entropy (cut : ℝ) (hcut : 0 ≤ cut) (k : Kind) (σ mu eps : ℝ) (hσ : σ ≠ 0)
    (hf : k = .fermi → cut < smear .fermi σ mu eps ∧ cut < 1 - smear .fermi σ mu eps) :
    HasDerivAt (fun e => smearEntropy cut k σ mu e) ((eps - mu) / σ * smearPrime k σ mu eps) eps := by
  have hx := xOf_deriv σ mu eps
  have hp := sqrtpi_ne
  have hxe : (eps - mu) / σ = 2 * xOf σ mu eps := by unfold xOf; field_simp
  rw [hxe]
  cases k with
  | fermi =>
    obtain ⟨h1, h2⟩ := hf rfl
    have hd := C65_derivative .fermi σ mu eps hσ
    have hc := hd.continuousAt
    have f0 : smear .fermi σ mu eps ≠ 0 := by linarith
    have f1 : 1 - smear .fermi σ mu eps ≠ 0 := by linarith
    have hS := ((hd.mul (hd.log f0)).const_sub 0).sub ((hd.const_sub 1).mul ((hd.const_sub 1).log f1))
    have hev : (fun e => smearEntropy cut .fermi σ mu e) =ᶠ[𝓝 eps] fun e =>
        0 - smear .fermi σ mu e * Real.log (smear .fermi σ mu e) - (1 - smear .fermi σ mu e) * Real.log (1 - smear .fermi σ mu e) := by
      have e1 : ∀ᶠ e in 𝓝 eps, cut < smear .fermi σ mu e := hc.eventually (lt_mem_nhds h1)
      have e2 : ∀ᶠ e in 𝓝 eps, cut < 1 - smear .fermi σ mu e := by
        have hc2 : ContinuousAt (fun e => 1 - smear .fermi σ mu e) eps := continuousAt_const.sub hc
        exact hc2.eventually (lt_mem_nhds h2)
      filter_upwards [e1, e2] with e h3 h4
      unfold smear occ at h3 h4 ⊢
      unfold smearEntropy
      simp only at h3 h4 ⊢
      rw [if_pos h3, if_pos h4]
    refine HasDerivAt.congr_of_eventuallyEq (hS.congr_deriv ?_) hev
    have hl : Real.log (1 - smear .fermi σ mu eps) - Real.log (smear .fermi σ mu eps) = 2 * xOf σ mu eps := by
      rw [← Real.log_div f1 f0]
      have : (1 - smear .fermi σ mu eps) / smear .fermi σ mu eps = Real.exp (2 * xOf σ mu eps) := by
        unfold smear occ
        simp only [fermi_eq]
        have := Real.exp_pos (2 * xOf σ mu eps)
        field_simp
        ring
      rw [this, Real.log_exp]
    rw [← hl]
    field_simp
    ring
  | gauss =>
    have := ((expsq_deriv (xOf σ mu eps)).comp eps hx).div_const (Real.sqrt Real.pi)
    refine this.congr_deriv ?_
    unfold smearPrime
    simp only
    field_simp
  | mp1 =>
    have hq : HasDerivAt (fun x : ℝ => 0.5 - x * x) (-(2 * xOf σ mu eps)) (xOf σ mu eps) := by
      have := ((hasDerivAt_id (xOf σ mu eps)).mul (hasDerivAt_id (xOf σ mu eps))).const_sub 0.5
      refine this.congr_deriv ?_
      simp; ring
    have := ((hq.mul (expsq_deriv (xOf σ mu eps))).div_const (Real.sqrt Real.pi)).comp eps hx
    refine this.congr_deriv ?_
    unfold smearPrime
    simp only
    field_simp
    ring
  | cold =>
    have hy : HasDerivAt (fun e => xOf σ mu e + Real.sqrt 0.5) (1 / (2 * σ)) eps := hx.add_const _
    have hE := (expsq_deriv (xOf σ mu eps + Real.sqrt 0.5)).comp eps hy
    have hl : HasDerivAt (fun e => 1 + xOf σ mu e * Real.sqrt 2) (1 / (2 * σ) * Real.sqrt 2) eps := (hx.mul_const _).const_add 1
    have := (hE.mul hl).div_const (Real.sqrt Real.pi)
    refine (this.congr_deriv ?_).congr_of_eventuallyEq (Eventually.of_forall fun e => ?_)
    · unfold smearPrime
      simp only [Function.comp]
      have h2 : Real.sqrt 2 ≠ 0 := by positivity
      have h3 : Real.sqrt 2 * Real.sqrt 2 = 2 := Real.mul_self_sqrt (by norm_num)
      have e : -(xOf σ mu eps + Real.sqrt 0.5) ^ 2 = -(xOf σ mu eps + Real.sqrt 0.5) * (xOf σ mu eps + Real.sqrt 0.5) := by ring
      rw [e]
      generalize Real.exp (-(xOf σ mu eps + Real.sqrt 0.5) * (xOf σ mu eps + Real.sqrt 0.5)) = E
      rw [sqrt_half]
      generalize xOf σ mu eps = x
      field_simp
      have h4 : Real.sqrt 2 ^ 2 = 2 := by rw [sq]; exact h3
      linear_combination (-(E * x)) * h4
    · show smearEntropy cut .cold σ mu e = _
      unfold smearEntropy
      simp only [Function.comp, Pi.mul_apply]
      have e2 : -(xOf σ mu e + Real.sqrt 0.5) ^ 2 = -(xOf σ mu e + Real.sqrt 0.5) * (xOf σ mu e + Real.sqrt 0.5) := by ring
      rw [e2]

/-- Hence the grand potential of a band, `f (eps-mu) - T S`, changes with the eigenvalue by the occupation. -/
theorem C65_grand (cut : ℝ) (hcut : 0 ≤ cut) (k : Kind) (σ mu eps : ℝ) (hσ : σ ≠ 0)
    (hf : k = .fermi → cut < smear .fermi σ mu eps ∧ cut < 1 - smear .fermi σ mu eps) :
    HasDerivAt (fun e => smear k σ mu e * (e - mu) - σ * smearEntropy cut k σ mu e) (smear k σ mu eps) eps := by
  have h := ((C65_derivative k σ mu eps hσ).mul ((hasDerivAt_id eps).sub_const mu)).sub ((C65_entropy cut hcut k σ mu eps hσ hf).const_mul σ)
  refine h.congr_deriv ?_
  simp only [id]
  field_simp
  ring

/-- Fermi and Gaussian occupations lie strictly between 0 and 1 and decrease with the eigenvalue. -/
theorem C65_bounds (k : Kind) (hk : k = .fermi ∨ k = .gauss) (σ mu : ℝ) (hσ : 0 < σ) :
    StrictAnti (fun e => smear k σ mu e) ∧ ∀ e, 0 < smear k σ mu e ∧ smear k σ mu e < 1 := by
  have hocc : StrictAnti (occ k) := by
    rcases hk with rfl | rfl
    · intro a b hab
      unfold occ
      simp only [fermi_eq]
      have h1 := Real.exp_lt_exp.2 (by linarith : 2 * a < 2 * b)
      have h2 := Real.exp_pos (2 * a)
      exact one_div_lt_one_div_of_lt (by linarith) (by linarith)
    · have : StrictAnti erfc := by
        refine strictAnti_of_deriv_neg fun x => ?_
        rw [(erfc_deriv' x).deriv]
        have := Real.exp_pos (-x * x)
        have := Real.sqrt_pos.2 Real.pi_pos
        have : 0 < 2 / Real.sqrt Real.pi * Real.exp (-x * x) := by positivity
        linarith
      intro a b hab
      have := this hab
      unfold occ
      simp only
      linarith
  have hanti : StrictAnti (fun e => smear k σ mu e) := by
    intro a b hab
    apply hocc
    unfold xOf
    have : 0 < 2 * σ := by linarith
    gcongr
  refine ⟨hanti, fun e => ⟨?_, ?_⟩⟩
  · have h1 := hocc.antitone.le_of_tendsto (occ_top k) (xOf σ mu e + 1)
    exact lt_of_le_of_lt h1 (hocc (by linarith))
  · have h1 := hocc.antitone.ge_of_tendsto (occ_bot k) (xOf σ mu e - 1)
    exact lt_of_lt_of_le (hocc (by linarith)) h1

/-- At half filling the hypothesis on the Fermi occupations holds. -/
example : (1e-30 : ℝ) < smear .fermi 1e-3 0 0 ∧ (1e-30 : ℝ) < 1 - smear .fermi 1e-3 0 0 := by
  unfold smear occ xOf
  norm_num

end
end Jdftx.Smear
