import Verif.Lemmas.GGAHole
import Mathlib.Analysis.Calculus.ParametricIntegral
import Mathlib.MeasureTheory.Integral.Gamma
import Mathlib.Analysis.SpecialFunctions.Gaussian.GaussianIntegral
import Mathlib.Analysis.SpecialFunctions.Gamma.Basic

/-!
# Integrals of Gaussians with the complementary error function
-/
namespace Jdftx.GGA
noncomputable section
open MeasureTheory Filter Set
open scoped Topology

/-- `∫₀^∞ yⁿ exp(-A y²) erfc(B y) dy`. -/
def gaussErfc (n : Nat) (A B : ℝ) : ℝ := ∫ y in Ioi (0 : ℝ), y ^ n * Real.exp (-A * y ^ 2) * Smear.erfc (B * y)

theorem gauss_int (n : Nat) (A : ℝ) (hA : 0 < A) : IntegrableOn (fun y : ℝ => y ^ n * Real.exp (-A * y ^ 2)) (Ioi 0) := by
  have := integrableOn_rpow_mul_exp_neg_mul_sq hA (s := (n : ℝ)) (by have : (0 : ℝ) ≤ n := Nat.cast_nonneg n; linarith)
  simpa only [Real.rpow_natCast] using this

theorem gauss_val (n : Nat) (A : ℝ) (hA : 0 < A) :
    ∫ y in Ioi (0 : ℝ), y ^ n * Real.exp (-A * y ^ 2) = A ^ (-((n : ℝ) + 1) / 2) * (1 / 2) * Real.Gamma (((n : ℝ) + 1) / 2) := by
  have := integral_rpow_mul_exp_neg_mul_rpow (p := 2) (q := n) (b := A) (by norm_num)
    (by have : (0 : ℝ) ≤ n := Nat.cast_nonneg n; linarith) hA
  simpa only [Real.rpow_natCast, Real.rpow_two] using this

theorem erfc_anti : Antitone Smear.erfc := by
  refine antitone_of_deriv_nonpos (fun x => (Smear.erfc_deriv x).differentiableAt) fun x => ?_
  rw [(Smear.erfc_deriv x).deriv]
  have : 0 ≤ 2 / Real.sqrt Real.pi * Real.exp (-x ^ 2) := by positivity
  linarith

theorem erfc_zero : Smear.erfc 0 = 1 := by simp [Smear.erfc]

theorem erfc_nonneg (x : ℝ) : 0 ≤ Smear.erfc x := erfc_anti.le_of_tendsto Smear.erfc_top x

theorem erfc_le_one {x : ℝ} (h : 0 ≤ x) : Smear.erfc x ≤ 1 := by
  have := erfc_anti h
  rwa [erfc_zero] at this

theorem gaussErfc_int (n : Nat) (A B : ℝ) (hA : 0 < A) (hB : 0 ≤ B) :
    IntegrableOn (fun y : ℝ => y ^ n * Real.exp (-A * y ^ 2) * Smear.erfc (B * y)) (Ioi 0) := by
  refine Integrable.mono' (gauss_int n A hA) ?_ ?_
  · have := Smear.erfc_continuous
    exact Continuous.aestronglyMeasurable (by fun_prop)
  · refine (ae_restrict_iff' measurableSet_Ioi).2 (Eventually.of_forall fun y hy => ?_)
    have hy : 0 < y := hy
    have h0 := erfc_nonneg (B * y)
    rw [Real.norm_of_nonneg (by positivity)]
    exact mul_le_of_le_one_right (by positivity) (erfc_le_one (by positivity))

/-- Derivative with respect to the range. -/
theorem gaussErfc_deriv (n : Nat) (A B : ℝ) (hA : 0 < A) (hB : 0 < B) :
    HasDerivAt (gaussErfc n A)
      (-(2 / Real.sqrt Real.pi * ((A + B * B) ^ (-((n : ℝ) + 2) / 2) * (1 / 2) * Real.Gamma (((n : ℝ) + 2) / 2)))) B := by
  have hmeas : ∀ b, AEStronglyMeasurable (fun y : ℝ => y ^ n * Real.exp (-A * y ^ 2) * Smear.erfc (b * y)) (volume.restrict (Ioi 0)) := by
    intro b
    have := Smear.erfc_continuous
    exact Continuous.aestronglyMeasurable (by fun_prop)
  have key := (hasDerivAt_integral_of_dominated_loc_of_deriv_le (μ := volume.restrict (Ioi (0 : ℝ)))
    (F := fun b y => y ^ n * Real.exp (-A * y ^ 2) * Smear.erfc (b * y))
    (F' := fun b y => y ^ n * Real.exp (-A * y ^ 2) * (-(2 / Real.sqrt Real.pi * Real.exp (-(b * y) ^ 2)) * y))
    (x₀ := B) (s := Ioi 0) (bound := fun y => 2 / Real.sqrt Real.pi * (y ^ (n + 1) * Real.exp (-A * y ^ 2)))
    (Ioi_mem_nhds hB) (Eventually.of_forall hmeas) (gaussErfc_int n A B hA hB.le)
    (Continuous.aestronglyMeasurable (by fun_prop)) ?_ ((gauss_int (n + 1) A hA).const_mul _) ?_).2
  · refine key.congr_deriv ?_
    have e : ∀ y : ℝ, y ^ n * Real.exp (-A * y ^ 2) * (-(2 / Real.sqrt Real.pi * Real.exp (-(B * y) ^ 2)) * y)
        = -(2 / Real.sqrt Real.pi) * (y ^ (n + 1) * Real.exp (-(A + B * B) * y ^ 2)) := by
      intro y
      rw [show -(A + B * B) * y ^ 2 = -A * y ^ 2 + -(B * y) ^ 2 by ring, Real.exp_add]
      ring
    simp only [e]
    rw [integral_const_mul, gauss_val (n + 1) _ (by positivity)]
    push_cast
    rw [show ((n : ℝ) + 1 + 1) = (n : ℝ) + 2 by ring]
    ring
  · refine (ae_restrict_iff' measurableSet_Ioi).2 (Eventually.of_forall fun y hy b _ => ?_)
    have hy : 0 < y := hy
    have h1 : Real.exp (-(b * y) ^ 2) ≤ 1 := Real.exp_le_one_iff.2 (by nlinarith [sq_nonneg (b * y)])
    have h2 : 0 ≤ 2 / Real.sqrt Real.pi := by positivity
    rw [show y ^ n * Real.exp (-A * y ^ 2) * (-(2 / Real.sqrt Real.pi * Real.exp (-(b * y) ^ 2)) * y)
      = -(2 / Real.sqrt Real.pi * (y ^ (n + 1) * Real.exp (-A * y ^ 2)) * Real.exp (-(b * y) ^ 2)) by ring, norm_neg,
      Real.norm_of_nonneg (by positivity)]
    exact mul_le_of_le_one_right (by positivity) h1
  · refine Eventually.of_forall fun y b _ => ?_
    have h1 : HasDerivAt (fun b : ℝ => b * y) y b := by simpa using (hasDerivAt_id b).mul_const y
    exact ((Smear.erfc_deriv (b * y)).comp b h1).const_mul _

/-- The integral vanishes for infinitely short range. -/
theorem gaussErfc_top (n : Nat) (A : ℝ) (hA : 0 < A) : Tendsto (gaussErfc n A) atTop (𝓝 0) := by
  have h := tendsto_integral_filter_of_dominated_convergence (μ := volume.restrict (Ioi (0 : ℝ))) (l := atTop)
    (F := fun b y => y ^ n * Real.exp (-A * y ^ 2) * Smear.erfc (b * y)) (f := fun _ => (0 : ℝ))
    (fun y => y ^ n * Real.exp (-A * y ^ 2)) ?_ ?_ (gauss_int n A hA) ?_
  · rw [integral_zero] at h
    exact h
  · refine Eventually.of_forall fun b => ?_
    have := Smear.erfc_continuous
    exact Continuous.aestronglyMeasurable (by fun_prop)
  · filter_upwards [eventually_ge_atTop (0 : ℝ)] with b hb
    refine (ae_restrict_iff' measurableSet_Ioi).2 (Eventually.of_forall fun y hy => ?_)
    have hy : 0 < y := hy
    have h0 := erfc_nonneg (b * y)
    rw [Real.norm_of_nonneg (by positivity)]
    exact mul_le_of_le_one_right (by positivity) (erfc_le_one (by positivity))
  · refine (ae_restrict_iff' measurableSet_Ioi).2 (Eventually.of_forall fun y hy => ?_)
    have hy : 0 < y := hy
    have := (Smear.erfc_top.comp (tendsto_id.atTop_mul_const hy)).const_mul (y ^ n * Real.exp (-A * y ^ 2))
    simpa using this

/-- A function with the same derivative that also vanishes for infinitely short range is the integral. -/
theorem gaussErfc_eq (n : Nat) (A : ℝ) (hA : 0 < A) (v v' : ℝ → ℝ) (hv : ∀ B, 0 < B → HasDerivAt v (v' B) B)
    (hd : ∀ B, 0 < B → v' B = -(2 / Real.sqrt Real.pi * ((A + B * B) ^ (-((n : ℝ) + 2) / 2) * (1 / 2) * Real.Gamma (((n : ℝ) + 2) / 2))))
    (ht : Tendsto v atTop (𝓝 0)) (B : ℝ) (hB : 0 < B) : v B = gaussErfc n A B := by
  have hD : ∀ b ∈ Ioi (0 : ℝ), HasDerivAt (fun b => v b - gaussErfc n A b) 0 b := by
    intro b hb
    refine ((hv b hb).fun_sub (gaussErfc_deriv n A b hA hb)).congr_deriv ?_
    rw [hd b hb, sub_self]
  have hc : ∀ b ∈ Ioi (0 : ℝ), v b - gaussErfc n A b = v B - gaussErfc n A B := by
    intro b hb
    exact isOpen_Ioi.is_const_of_deriv_eq_zero isPreconnected_Ioi (fun x hx => (hD x hx).differentiableAt.differentiableWithinAt)
      (fun x hx => (hD x hx).deriv) hb hB
  have h1 : Tendsto (fun b => v b - gaussErfc n A b) atTop (𝓝 0) := by simpa using ht.sub (gaussErfc_top n A hA)
  have h2 : Tendsto (fun b => v b - gaussErfc n A b) atTop (𝓝 (v B - gaussErfc n A B)) := by
    refine tendsto_const_nhds.congr' ?_
    filter_upwards [eventually_gt_atTop (0 : ℝ)] with b hb
    exact (hc b hb).symm
  linarith [tendsto_nhds_unique h2 h1]

/-! ### The closed forms -/

theorem v_deriv (F : ℝ → ℝ → I2) (A B : ℝ) (h : IOk F A B) : HasDerivAt (fun b => (F A b).v) (F A B).v_B B := by
  have := h (fun _ => A) (fun t => B + t) 0 1 rfl (by simp) (hasDerivAt_const 0 A) (by simpa using (hasDerivAt_id (0 : ℝ)).const_add B)
  rw [mul_zero, zero_add, mul_one] at this
  have h2 := HasDerivAt.comp_sub_const B B (f := fun t => (F A (B + t)).v) (f' := (F A B).v_B) (by rwa [sub_self])
  simpa using h2

/-- `B/sqrt(A+B²)` tends to one. -/
theorem ratio_top (A : ℝ) (hA : 0 < A) : Tendsto (fun B : ℝ => B * Real.sqrt (1 / (A + B * B))) atTop (𝓝 1) := by
  have h1 : Tendsto (fun B : ℝ => Real.sqrt (1 / (A * (B⁻¹ * B⁻¹) + 1))) atTop (𝓝 1) := by
    have : Tendsto (fun B : ℝ => 1 / (A * (B⁻¹ * B⁻¹) + 1)) atTop (𝓝 (1 / (A * (0 * 0) + 1))) := by
      refine Tendsto.div tendsto_const_nhds ?_ (by norm_num)
      exact ((tendsto_inv_atTop_zero.mul tendsto_inv_atTop_zero).const_mul A).add_const 1
    have := this.sqrt
    simpa using this
  refine h1.congr' ?_
  filter_upwards [eventually_gt_atTop (0 : ℝ)] with B hB
  have : (1 : ℝ) / (A * (B⁻¹ * B⁻¹) + 1) = B ^ 2 * (1 / (A + B * B)) := by
    field_simp
  rw [this, Real.sqrt_mul (by positivity), Real.sqrt_sq hB.le]

theorem inv_top (A : ℝ) : Tendsto (fun B : ℝ => 1 / (A + B * B)) atTop (𝓝 0) := by
  have : Tendsto (fun B : ℝ => A + B * B) atTop atTop := tendsto_atTop_add_const_left _ _ (tendsto_id.atTop_mul_atTop₀ tendsto_id)
  exact this.inv_tendsto_atTop.congr fun B => (one_div _).symm

theorem gamma_half (n : Nat) : Real.Gamma ((n : ℝ) + 1 / 2 + 1) = ((n : ℝ) + 1 / 2) * Real.Gamma ((n : ℝ) + 1 / 2) :=
  Real.Gamma_add_one (by positivity)

theorem gamma32 : Real.Gamma (3 / 2) = Real.sqrt Real.pi / 2 := by
  have := gamma_half 0
  norm_num [Real.Gamma_one_half_eq] at this ⊢
  rw [this]; ring

theorem gamma52 : Real.Gamma (5 / 2) = 3 * Real.sqrt Real.pi / 4 := by
  have := gamma_half 1
  norm_num [gamma32] at this ⊢
  rw [this]; ring

theorem gamma72 : Real.Gamma (7 / 2) = 15 * Real.sqrt Real.pi / 8 := by
  have := gamma_half 2
  norm_num [gamma52] at this ⊢
  rw [this]; ring

theorem rpow_half (x : ℝ) (hx : 0 < x) (k : Nat) : x ^ (-(2 * (k : ℝ) + 1) / 2) = Real.sqrt (1 / x) * (1 / x) ^ k := by
  rw [show -(2 * (k : ℝ) + 1) / 2 = -(1 / 2) + -(k : ℝ) by ring, Real.rpow_add hx, Real.rpow_neg hx.le, Real.rpow_neg hx.le, Real.rpow_natCast,
    ← Real.sqrt_eq_rpow, one_div, Real.sqrt_inv, inv_pow]

theorem integral1_eq (A B : ℝ) (hA : 0 < A) (hB : 0 < B) : (integral1 A B).v = gaussErfc 1 A B := by
  refine gaussErfc_eq 1 A hA (fun b => (integral1 A b).v) (fun b => (integral1 A b).v_B) (fun b _ => v_deriv _ _ _ (integral1_ok A b hA)) ?_ ?_ B hB
  · intro b hb
    have hp : 0 < A + b * b := by positivity
    have e := rpow_half _ hp 1
    have hpi : 0 < Real.sqrt Real.pi := Real.sqrt_pos.2 Real.pi_pos
    norm_num at e
    norm_num [integral1, gamma32, e]
    field_simp
  · have := ((ratio_top A hA).const_sub 1).mul_const (0.5 * (1 / A))
    simp only [integral1]
    simpa [mul_assoc] using this

theorem integral3_eq (A B : ℝ) (hA : 0 < A) (hB : 0 < B) : (integral3 A B).v = gaussErfc 3 A B := by
  refine gaussErfc_eq 3 A hA (fun b => (integral3 A b).v) (fun b => (integral3 A b).v_B) (fun b _ => v_deriv _ _ _ (integral3_ok A b hA)) ?_ ?_ B hB
  · intro b hb
    have hp : 0 < A + b * b := by positivity
    have e := rpow_half _ hp 2
    have hpi : 0 < Real.sqrt Real.pi := Real.sqrt_pos.2 Real.pi_pos
    norm_num at e
    norm_num [integral3, gamma52, e]
    field_simp
  · have h1 := ratio_top A hA
    have h2 := ((h1.mul (inv_top A)).const_mul (0.5 * A))
    have := ((h1.add h2).const_sub 1).mul_const (0.5 * (1 / A) * (1 / A))
    simp only [mul_zero, add_zero, sub_self, zero_mul] at this
    refine this.congr fun b => ?_
    simp only [integral3]
    ring

theorem integral5_eq (A B : ℝ) (hA : 0 < A) (hB : 0 < B) : (integral5 A B).v = gaussErfc 5 A B := by
  refine gaussErfc_eq 5 A hA (fun b => (integral5 A b).v) (fun b => (integral5 A b).v_B) (fun b _ => v_deriv _ _ _ (integral5_ok A b hA)) ?_ ?_ B hB
  · intro b hb
    have hp : 0 < A + b * b := by positivity
    have e := rpow_half _ hp 3
    have hpi : 0 < Real.sqrt Real.pi := Real.sqrt_pos.2 Real.pi_pos
    norm_num at e
    norm_num [integral5, gamma72, e]
    field_simp
  · have h1 := ratio_top A hA
    have h0 := inv_top A
    have h2 := (h1.mul h0).const_mul (0.5 * (1 / A))
    have h3 := ((h1.mul h0).mul h0).const_mul 0.375
    have := ((h1.mul_const (1 / A * (1 / A))).add (h2.add h3)).const_sub (1 / A * (1 / A)) |>.const_mul (1 / A)
    simp only [mul_zero, add_zero, one_mul, sub_self] at this
    refine this.congr fun b => ?_
    simp only [integral5]
    ring

theorem integral2_eq (A B : ℝ) (hA : 0 < A) (hB : 0 < B) : (integral2 A B).v = gaussErfc 2 A B := by
  refine gaussErfc_eq 2 A hA (fun b => (integral2 A b).v) (fun b => (integral2 A b).v_B) (fun b hb => v_deriv _ _ _ (integral2_ok A b hA hb)) ?_ ?_ B hB
  · intro b hb
    have hp : 0 < A + b * b := by positivity
    have e : (A + b * b) ^ (-(((2 : ℕ) : ℝ) + 2) / 2) = (1 / (A + b * b)) ^ 2 := by
      rw [show (-(((2 : ℕ) : ℝ) + 2) / 2) = -((2 : ℕ) : ℝ) by norm_num, Real.rpow_neg hp.le, Real.rpow_natCast, one_div, inv_pow]
    have hpi : 0 < Real.sqrt Real.pi := Real.sqrt_pos.2 Real.pi_pos
    rw [e]
    norm_num [integral2]
    field_simp
  · have h0 := inv_top A
    have ha : Tendsto (fun b : ℝ => Real.arctan (Real.sqrt A / b)) atTop (𝓝 0) := by
      have := Real.continuous_arctan.continuousAt.tendsto.comp (tendsto_const_nhds (x := Real.sqrt A) |>.div_atTop tendsto_id)
      simpa [Function.comp_def] using this
    have hb : Tendsto (fun b : ℝ => b * (1 / (A + b * b))) atTop (𝓝 0) := by
      have h1 := (ratio_top A hA).mul h0.sqrt
      simp only [Real.sqrt_zero, mul_zero] at h1
      refine h1.congr fun b => ?_
      rw [mul_assoc, Real.mul_self_sqrt (div_nonneg zero_le_one (add_nonneg hA.le (mul_self_nonneg b)))]
    have := ((hb.mul_const (1 / A)).neg.add (ha.mul_const (1 / A / Real.sqrt A))).const_mul (0.5 * (1 / Real.sqrt Real.pi))
    simp only [zero_mul, neg_zero, add_zero, mul_zero] at this
    refine this.congr fun b => ?_
    simp only [integral2]
    ring

end
end Jdftx.GGA
