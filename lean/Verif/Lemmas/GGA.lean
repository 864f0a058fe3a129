import Verif.Model.GGA
import Verif.Lemmas.LDA
import Verif.Lemmas.Smear
import Mathlib.Analysis.SpecialFunctions.Arsinh

/-!
# Lemmas for C87: derivatives of the inner functions along curves
-/
namespace Jdftx.GGA
noncomputable section
open Filter Topology
open Jdftx.LDA (V1 V2 nCutoff rsOf)

theorem slater_ok (rs : ℝ) (h : 0 < rs) : HasDerivAt (fun r => (slaterExchange r).e) (slaterExchange rs).e_rs rs := by
  simp only [slaterExchange]
  generalize (0.75 * (1.5 / Real.pi) ^ (2 / 3 : ℝ)) = k
  have h1 := ((hasDerivAt_const rs (-1 : ℝ)).div (hasDerivAt_id rs) h.ne').mul_const k
  refine h1.congr_deriv ?_
  simp only [id]
  field_simp
  ring

theorem tf_ok (rs : ℝ) (h : 0 < rs) : HasDerivAt (fun r => (tfKinetic r).e) (tfKinetic rs).e_rs rs := by
  simp only [tfKinetic]
  generalize (9 / 20 * (1.5 * Real.pi * Real.pi) ^ (1 / 3 : ℝ)) = k
  have h1 := (((hasDerivAt_const rs (1 : ℝ)).fun_div (hasDerivAt_id' rs) h.ne').fun_pow 2).const_mul k
  refine h1.congr_deriv ?_
  norm_num
  field_simp

/-- The reported derivatives are those of the energy along every curve through the point, with squared gradients. -/
def XOk (F : ℝ → ℝ → X2) (rs s2 : ℝ) : Prop :=
  ∃ d, (F rs s2).e_s2 = some d ∧ ∀ (r s : ℝ → ℝ) (r' s' : ℝ), r 0 = rs → s 0 = s2 → (∀ t, 0 ≤ s t) →
    HasDerivAt r r' 0 → HasDerivAt s s' 0 → HasDerivAt (fun t => (F (r t) (s t)).e) ((F rs s2).e_rs * r' + d * s') 0

theorem comp_at {f : ℝ → ℝ} {f' x x' : ℝ} {c : ℝ → ℝ} (hf : HasDerivAt f f' x) (hc0 : c 0 = x) (hc : HasDerivAt c x' 0) :
    HasDerivAt (fun t => f (c t)) (f' * x') 0 := by
  rw [← hc0] at hf
  exact HasDerivAt.comp (0 : ℝ) hf hc

theorem comp_within {f : ℝ → ℝ} {f' x x' : ℝ} {c : ℝ → ℝ} (hf : HasDerivWithinAt f f' (Set.Ici 0) x) (hc0 : c 0 = x) (hc : HasDerivAt c x' 0)
    (hp : ∀ t, 0 ≤ c t) : HasDerivAt (fun t => f (c t)) (f' * x') 0 := by
  rw [← hc0] at hf
  exact HasDerivWithinAt.comp_hasDerivAt (0 : ℝ) hf hc (Eventually.of_forall hp)

/-- A product of a function of `rs` and an enhancement factor. -/
theorem product_ok (e0 : ℝ → V1) (F F' : ℝ → ℝ) (rs s2 : ℝ) (he : HasDerivAt (fun r => (e0 r).e) (e0 rs).e_rs rs)
    (hF : HasDerivWithinAt F (F' s2) (Set.Ici 0) s2) :
    XOk (fun rs s2 => { e_rs := (e0 rs).e_rs * F s2, e_s2 := some ((e0 rs).e * F' s2), e := (e0 rs).e * F s2 }) rs s2 := by
  refine ⟨_, rfl, fun r s r' s' hr0 hs0 hp hr hs => ?_⟩
  refine ((comp_at he hr0 hr).mul (comp_within hF hs0 hs hp)).congr_deriv ?_
  simp only [hr0, hs0]
  ring

theorem pbeX_ok (kappa mu rs s2 : ℝ) (hk : 0 < kappa) (hm : 0 < mu) (h : 0 < rs) (hs : 0 ≤ s2) : XOk (pbeExchange kappa mu) rs s2 := by
  refine product_ok slaterExchange (fun s2 => 1 + kappa + (kappa * (kappa / mu)) * (-1 / (kappa / mu + s2)))
    (fun s2 => (kappa * (kappa / mu)) * (-1 / (kappa / mu + s2)) * (-1 / (kappa / mu + s2))) rs s2 (slater_ok rs h) ?_
  have hd : kappa / mu + s2 ≠ 0 := by positivity
  have := (((hasDerivAt_const s2 (-1 : ℝ)).div ((hasDerivAt_id s2).const_add (kappa / mu)) hd).const_mul (kappa * (kappa / mu))).const_add (1 + kappa)
  refine (this.congr_deriv ?_).hasDerivWithinAt
  simp only [id] at *
  generalize kappa / mu + s2 = q at *
  field_simp
  ring

theorem enh_den_pos (P Q U s2 : ℝ) (hP : 0 < P) (hQ : 0 < Q) (hU : 0 < U) :
    0 < 1 + P * Real.sqrt s2 * Real.arsinh (Q * Real.sqrt s2) + U * s2 * s2 := by
  have h1 : 0 ≤ Real.arsinh (Q * Real.sqrt s2) := Real.arsinh_nonneg_iff.2 (by positivity)
  have h2 : 0 ≤ U * s2 * s2 := by rw [mul_assoc]; exact mul_nonneg hU.le (mul_self_nonneg s2)
  have h3 : 0 ≤ P * Real.sqrt s2 * Real.arsinh (Q * Real.sqrt s2) := by positivity
  linarith

theorem asinh_ok (P Q s2 : ℝ) (hs : 0 < s2) : HasDerivAt (fun s2 => P * Real.sqrt s2 * Real.arsinh (Q * Real.sqrt s2))
    (0.5 * (P * Real.sqrt s2 * Real.arsinh (Q * Real.sqrt s2) / s2 + (P * Q) / Real.sqrt (1 + (Q * Q) * s2))) s2 := by
  have hsq := Real.hasDerivAt_sqrt hs.ne'
  have h1 := (hsq.const_mul P).mul ((hsq.const_mul Q).arsinh)
  refine h1.congr_deriv ?_
  have hr : Real.sqrt s2 * Real.sqrt s2 = s2 := Real.mul_self_sqrt hs.le
  have hp : 0 < Real.sqrt s2 := Real.sqrt_pos.2 hs
  have e : 1 + (Q * Real.sqrt s2) ^ 2 = 1 + (Q * Q) * s2 := by rw [mul_pow, sq (Real.sqrt s2), hr]; ring
  rw [e]
  have hz : 0 < Real.sqrt (1 + Q * Q * s2) := Real.sqrt_pos.2 (by nlinarith [mul_self_nonneg Q])
  generalize Real.sqrt (1 + Q * Q * s2) = z at *
  generalize Real.arsinh (Q * Real.sqrt s2) = a
  simp only [smul_eq_mul]
  clear h1 e hsq
  generalize Real.sqrt s2 = q at *
  subst hr
  field_simp
  norm_num
  ring

/-- At zero gradient the derivative is one-sided. -/
theorem asinh_zero (P Q : ℝ) : HasDerivWithinAt (fun s2 => P * Real.sqrt s2 * Real.arsinh (Q * Real.sqrt s2)) (P * Q) (Set.Ici 0) 0 := by
  rw [← hasDerivWithinAt_Ioi_iff_Ici, hasDerivWithinAt_iff_tendsto_slope' (by simp)]
  have h0 : HasDerivAt (fun y => Real.arsinh (Q * y)) Q 0 := by
    refine (((hasDerivAt_id' (0 : ℝ)).const_mul Q).arsinh).congr_deriv ?_
    simp
  have h1 := (hasDerivAt_iff_tendsto_slope.1 h0)
  have h2 : Tendsto Real.sqrt (𝓝[Set.Ioi 0] 0) (𝓝[≠] 0) := by
    refine tendsto_nhdsWithin_iff.2 ⟨?_, ?_⟩
    · have := Real.continuous_sqrt.tendsto 0
      rw [Real.sqrt_zero] at this
      exact this.mono_left nhdsWithin_le_nhds
    · filter_upwards [self_mem_nhdsWithin] with x hx
      exact (Real.sqrt_pos.2 hx).ne'
  refine ((h1.comp h2).const_mul P).congr' ?_
  filter_upwards [self_mem_nhdsWithin] with x hx
  have hx : 0 < x := hx
  have hr : 0 < Real.sqrt x := Real.sqrt_pos.2 hx
  have hrr : Real.sqrt x * Real.sqrt x = x := Real.mul_self_sqrt hx.le
  simp only [Function.comp_apply, slope_def_field, Real.sqrt_zero, mul_zero, Real.arsinh_zero, sub_zero]
  generalize Real.arsinh (Q * Real.sqrt x) = a
  generalize Real.sqrt x = r at *
  subst hrr
  field_simp

theorem asinh_any (P Q s2 : ℝ) (hs : 0 ≤ s2) : HasDerivWithinAt (fun s2 => P * Real.sqrt s2 * Real.arsinh (Q * Real.sqrt s2))
    (if s2 ≠ 0 then 0.5 * (P * Real.sqrt s2 * Real.arsinh (Q * Real.sqrt s2) / s2 + (P * Q) / Real.sqrt (1 + (Q * Q) * s2)) else P * Q)
    (Set.Ici 0) s2 := by
  rcases eq_or_lt_of_le hs with rfl | h
  · rw [if_neg (by simp)]
    exact asinh_zero P Q
  · rw [if_pos h.ne']
    exact (asinh_ok P Q s2 h).hasDerivWithinAt

theorem enh_ok (P Q R S T U s2 : ℝ) (hP : 0 < P) (hQ : 0 < Q) (hU : 0 < U) (hs : 0 ≤ s2) :
    HasDerivWithinAt (fun s2 => (pw91Enhancement P Q R S T U s2).1) (pw91Enhancement P Q R S T U s2).2 (Set.Ici 0) s2 := by
  have hA := asinh_any P Q s2 hs
  have hden := enh_den_pos P Q U s2 hP hQ hU
  simp only [pw91Enhancement]
  have hid := (hasDerivAt_id s2).hasDerivWithinAt (s := Set.Ici 0)
  have hG := ((hid.const_mul (-T)).exp).const_mul S
  have hnum := (hA.const_add 1).add (hid.mul (hG.const_sub R))
  have hd := (hA.const_add 1).add ((hid.const_mul U).mul hid)
  refine (hnum.div hd (by simpa using hden.ne')).congr_deriv ?_
  simp only [Pi.add_apply, Pi.mul_apply, id]
  generalize (if s2 ≠ 0 then 0.5 * (P * Real.sqrt s2 * Real.arsinh (Q * Real.sqrt s2) / s2 + P * Q / Real.sqrt (1 + Q * Q * s2)) else P * Q) = A'
  generalize P * Real.sqrt s2 * Real.arsinh (Q * Real.sqrt s2) = A
  rw [sq]
  congr 1
  ring

theorem vw_ok (rs s2 : ℝ) (h : 0 < rs) : XOk vwKinetic rs s2 := by
  refine ⟨_, rfl, fun r s r' s' hr0 hs0 _ hr hs => ?_⟩
  simp only [vwKinetic]
  generalize (1 * 3 / 4 * (1.5 * Real.pi * Real.pi) ^ (1 / 3 : ℝ)) = k
  have hr1 : r 0 ≠ 0 := by rw [hr0]; exact h.ne'
  have h1 := ((((hasDerivAt_const (0 : ℝ) (1 : ℝ)).fun_div hr hr1).fun_pow 2).const_mul k).fun_mul hs
  refine h1.congr_deriv ?_
  simp only [hr0, hs0]
  have := h.ne'
  norm_num
  field_simp

theorem pw91X_ok (rs s2 : ℝ) (h : 0 < rs) (hs : 0 ≤ s2) : XOk pw91Exchange rs s2 :=
  product_ok slaterExchange (fun s2 => (pw91Enhancement 0.19645 7.7956 0.2743 0.1508 100 0.004 s2).1)
    (fun s2 => (pw91Enhancement 0.19645 7.7956 0.2743 0.1508 100 0.004 s2).2) rs s2 (slater_ok rs h)
    (enh_ok _ _ _ _ _ _ s2 (by norm_num) (by norm_num) (by norm_num) hs)

theorem pw91K_ok (rs s2 : ℝ) (h : 0 < rs) (hs : 0 ≤ s2) : XOk pw91Kinetic rs s2 :=
  product_ok tfKinetic (fun s2 => (pw91Enhancement 0.093907 76.320 0.26608 0.0809615 100 0.57767e-4 s2).1)
    (fun s2 => (pw91Enhancement 0.093907 76.320 0.26608 0.0809615 100 0.57767e-4 s2).2) rs s2 (tf_ok rs h)
    (enh_ok _ _ _ _ _ _ s2 (by norm_num) (by norm_num) (by norm_num) hs)

end
end Jdftx.GGA
