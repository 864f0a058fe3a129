import Verif.Lemmas.GGA

/-!
# Lemmas for C87: the screened exchange hole
-/
namespace Jdftx.GGA
noncomputable section
open Filter Topology

/-- The reported derivatives of an integral are those of its value along every curve. -/
def IOk (F : ℝ → ℝ → I2) (A B : ℝ) : Prop :=
  ∀ (a b : ℝ → ℝ) (a' b' : ℝ), a 0 = A → b 0 = B → HasDerivAt a a' 0 → HasDerivAt b b' 0 →
    HasDerivAt (fun t => (F (a t) (b t)).v) ((F A B).v_A * a' + (F A B).v_B * b') 0

/-- Derivative of `1/(A+B^2)` and of its square root. -/
theorem inv_sum {a b : ℝ → ℝ} {A B a' b' : ℝ} (ha0 : a 0 = A) (hb0 : b 0 = B) (ha : HasDerivAt a a' 0) (hb : HasDerivAt b b' 0)
    (hA : 0 < A) : HasDerivAt (fun t => 1 / (a t + b t * b t)) (-(a' + 2 * B * b') * (1 / (A + B * B)) ^ 2) 0 ∧
    HasDerivAt (fun t => Real.sqrt (1 / (a t + b t * b t)))
      (-(a' + 2 * B * b') / 2 * (Real.sqrt (1 / (A + B * B)) * (1 / (A + B * B)))) 0 := by
  have hp : 0 < A + B * B := by nlinarith [mul_self_nonneg B]
  have hp0 : a 0 + b 0 * b 0 ≠ 0 := by rw [ha0, hb0]; exact hp.ne'
  have h1 : HasDerivAt (fun t => 1 / (a t + b t * b t)) (-(a' + 2 * B * b') * (1 / (A + B * B)) ^ 2) 0 := by
    refine ((hasDerivAt_const (0 : ℝ) (1 : ℝ)).fun_div (ha.fun_add (hb.fun_mul hb)) hp0).congr_deriv ?_
    rw [ha0, hb0]
    have := hp.ne'
    field_simp
    ring
  refine ⟨h1, ?_⟩
  have hne : 1 / (a 0 + b 0 * b 0) ≠ 0 := one_div_ne_zero hp0
  refine (h1.sqrt hne).congr_deriv ?_
  rw [ha0, hb0]
  have hq : 0 < 1 / (A + B * B) := by positivity
  generalize 1 / (A + B * B) = q at *
  have hs : 0 < Real.sqrt q := Real.sqrt_pos.2 hq
  have hss : Real.sqrt q * Real.sqrt q = q := Real.mul_self_sqrt hq.le
  generalize Real.sqrt q = s at *
  subst hss
  field_simp

theorem inv_A {a : ℝ → ℝ} {A a' : ℝ} (ha0 : a 0 = A) (ha : HasDerivAt a a' 0) (hA : 0 < A) :
    HasDerivAt (fun t => 1 / a t) (-a' * (1 / A) ^ 2) 0 := by
  have h0 : a 0 ≠ 0 := by rw [ha0]; exact hA.ne'
  refine ((hasDerivAt_const (0 : ℝ) (1 : ℝ)).fun_div ha h0).congr_deriv ?_
  rw [ha0]
  have := hA.ne'
  field_simp
  ring

/-- Algebra shared by the integrals: with `s` the inverse square root of `A+B^2`. -/
theorem sum_root (A B : ℝ) (hA : 0 < A) : ∃ s : ℝ, 0 < s ∧ Real.sqrt (1 / (A + B * B)) = s ∧ 1 / (A + B * B) = s * s ∧ A * (s * s) = 1 - B * B * (s * s) := by
  have hp : 0 < A + B * B := by nlinarith [mul_self_nonneg B]
  refine ⟨Real.sqrt (1 / (A + B * B)), Real.sqrt_pos.2 (by positivity), rfl, (Real.mul_self_sqrt (by positivity)).symm, ?_⟩
  rw [Real.mul_self_sqrt (by positivity)]
  field_simp
  ring

/-- `A` in terms of `B` and `s`. -/
theorem subst_A {A B s : ℝ} (hA : 0 < A) (hs : 0 < s) (e3 : A * (s * s) = 1 - B * B * (s * s)) :
    1 - B ^ 2 * s ^ 2 ≠ 0 ∧ A = (1 - B ^ 2 * s ^ 2) / s ^ 2 := by
  have h : 1 - B ^ 2 * s ^ 2 = A * s ^ 2 := by linear_combination -e3
  refine ⟨by rw [h]; positivity, ?_⟩
  rw [h]
  field_simp

theorem integral1_ok (A B : ℝ) (hA : 0 < A) : IOk integral1 A B := by
  intro a b a' b' ha0 hb0 ha hb
  obtain ⟨h1, h2⟩ := inv_sum ha0 hb0 ha hb hA
  have h3 := inv_A ha0 ha hA
  simp only [integral1]
  refine ((((hb.fun_mul h2).const_sub 1).mul_const 0.5).fun_mul h3).congr_deriv ?_
  rw [ha0, hb0]
  obtain ⟨s, hs, e1, e2, e3⟩ := sum_root A B hA
  rw [e1, e2]
  obtain ⟨hq, hB⟩ := subst_A hA hs e3
  clear e1 e2 e3 h1 h2 h3
  rw [hB]
  norm_num
  have hq' : 1 - s ^ 2 * B ^ 2 ≠ 0 := by rwa [mul_comm (s ^ 2)]
  field_simp
  ring

theorem integral3_ok (A B : ℝ) (hA : 0 < A) : IOk integral3 A B := by
  intro a b a' b' ha0 hb0 ha hb
  obtain ⟨h1, h2⟩ := inv_sum ha0 hb0 ha hb hA
  have h3 := inv_A ha0 ha hA
  simp only [integral3]
  refine (((((hb.fun_mul (h2.fun_add ((ha.const_mul 0.5).fun_mul (h2.fun_mul h1)))).const_sub 1).mul_const 0.5).fun_mul h3).fun_mul h3).congr_deriv ?_
  rw [ha0, hb0]
  obtain ⟨s, hs, e1, e2, e3⟩ := sum_root A B hA
  rw [e1, e2]
  obtain ⟨hq, hB⟩ := subst_A hA hs e3
  clear e1 e2 e3 h1 h2 h3
  rw [hB]
  norm_num
  have hq' : 1 - s ^ 2 * B ^ 2 ≠ 0 := by rwa [mul_comm (s ^ 2)]
  field_simp
  ring

theorem integral5_ok (A B : ℝ) (hA : 0 < A) : IOk integral5 A B := by
  intro a b a' b' ha0 hb0 ha hb
  obtain ⟨h1, h2⟩ := inv_sum ha0 hb0 ha hb hA
  have h3 := inv_A ha0 ha hA
  simp only [integral5]
  have i3 := h2.fun_mul h1
  have i5 := i3.fun_mul h1
  refine (h3.fun_mul ((h3.fun_mul h3).fun_sub (hb.fun_mul ((i5.const_mul 0.375).fun_add (h3.fun_mul ((i3.const_mul 0.5).fun_add (h3.fun_mul h2))))))).congr_deriv ?_
  rw [ha0, hb0]
  obtain ⟨s, hs, e1, e2, e3⟩ := sum_root A B hA
  rw [e1, e2]
  obtain ⟨hq, hB⟩ := subst_A hA hs e3
  clear e1 e2 e3 h1 h2 h3 i3 i5
  rw [hB]
  field_simp
  norm_num
  ring

theorem integral2_ok (A B : ℝ) (hA : 0 < A) (hB : 0 < B) : IOk integral2 A B := by
  intro a b a' b' ha0 hb0 ha hb
  obtain ⟨h1, _⟩ := inv_sum ha0 hb0 ha hb hA
  have h3 := inv_A ha0 ha hA
  have ha1 : a 0 ≠ 0 := by rw [ha0]; exact hA.ne'
  have hb1 : b 0 ≠ 0 := by rw [hb0]; exact hB.ne'
  have hsq := ha.sqrt ha1
  have hr0 : Real.sqrt (a 0) ≠ 0 := by rw [ha0]; exact (Real.sqrt_pos.2 hA).ne'
  have hat := ((((hsq.fun_div hb hb1).arctan).fun_mul h3).fun_div hsq hr0)
  simp only [integral2]
  refine (((((hb.neg.fun_mul h1).fun_div ha ha1)).fun_add hat).const_mul (0.5 * (1 / Real.sqrt Real.pi))).congr_deriv ?_
  have hr : 0 < Real.sqrt A := Real.sqrt_pos.2 hA
  have hrr : Real.sqrt A * Real.sqrt A = A := Real.mul_self_sqrt hA.le
  simp only [ha0, hb0, Pi.neg_apply]
  clear hat hsq h1 h3 hr0
  generalize Real.sqrt A = r at *
  subst hrr
  generalize Real.arctan (r / B) = th
  have hpi : 0 < Real.sqrt Real.pi := Real.sqrt_pos.2 Real.pi_pos
  generalize Real.sqrt Real.pi = k at *
  have q1 : 1 + (r / B) ^ 2 = (B ^ 2 + r ^ 2) / B ^ 2 := by field_simp
  have q2 : r * r + B * B = B ^ 2 + r ^ 2 := by ring
  rw [q1, q2]
  have q3 : 0 < B ^ 2 + r ^ 2 := by positivity
  field_simp
  norm_num
  ring

/-! ### Reduced gradient -/

theorem rescale_ok (s2 : ℝ) (h1 : s2 ≠ 1) (h2 : s2 ≠ 225) : HasDerivAt (fun s => (rescale s).1) (rescale s2).2 s2 := by
  rcases lt_trichotomy s2 225 with h | h | h
  · rcases lt_trichotomy s2 1 with k | k | k
    · have e : (fun s : ℝ => s) =ᶠ[𝓝 s2] fun s => (rescale s).1 := by
        filter_upwards [Iio_mem_nhds k] with s hs
        have hs' : s < 1 := hs
        have : ¬ s > 225 := by linarith
        simp only [rescale, if_neg this, if_neg (not_lt.2 hs'.le)]
      have v : (rescale s2).2 = 1 := by
        have : ¬ s2 > 225 := by linarith
        simp only [rescale, if_neg this, if_neg (not_lt.2 k.le)]
      rw [v]
      exact (hasDerivAt_id' s2).congr_of_eventuallyEq e.symm
    · exact absurd k h1
    · have e : (fun s : ℝ => (Real.sqrt s - Real.log (1 + Real.exp (Real.sqrt s - sMax))) * (Real.sqrt s - Real.log (1 + Real.exp (Real.sqrt s - sMax))))
          =ᶠ[𝓝 s2] fun s => (rescale s).1 := by
        filter_upwards [Iio_mem_nhds h, Ioi_mem_nhds k] with s hs hk
        simp only [rescale, if_neg (not_lt.2 (le_of_lt (show s < 225 from hs))), if_pos (show s > 1 from hk)]
      have v : (rescale s2).2 = (Real.sqrt s2 - Real.log (1 + Real.exp (Real.sqrt s2 - sMax))) * (1 / (1 + Real.exp (Real.sqrt s2 - sMax))) / Real.sqrt s2 := by
        simp only [rescale, if_neg (not_lt.2 h.le), if_pos k]
      rw [v]
      have hp : 0 < s2 := by linarith
      have hsq := Real.hasDerivAt_sqrt hp.ne'
      have hE : 0 < 1 + Real.exp (Real.sqrt s2 - sMax) := by positivity
      have hl := hsq.fun_sub ((((hsq.sub_const sMax).exp).const_add 1).log hE.ne')
      refine ((hl.fun_mul hl).congr_deriv ?_).congr_of_eventuallyEq e.symm
      have hr : 0 < Real.sqrt s2 := Real.sqrt_pos.2 hp
      generalize Real.log (1 + Real.exp (Real.sqrt s2 - sMax)) = l at *
      have hx : 0 < Real.exp (Real.sqrt s2 - sMax) := Real.exp_pos _
      generalize Real.exp (Real.sqrt s2 - sMax) = x at *
      generalize Real.sqrt s2 = r at *
      field_simp
      ring
  · exact absurd h h2
  · have e : (fun _ : ℝ => sMax * sMax) =ᶠ[𝓝 s2] fun s => (rescale s).1 := by
      filter_upwards [Ioi_mem_nhds h] with s hs
      simp only [rescale, if_pos (show s > 225 from hs)]
    have v : (rescale s2).2 = 0 := by simp only [rescale, if_pos h]
    rw [v]
    exact (hasDerivAt_const s2 (sMax * sMax)).congr_of_eventuallyEq e.symm

theorem rescale_pos (s2 : ℝ) (h : 0 < s2) : 0 < (rescale s2).1 := by
  by_cases h1 : s2 > 225
  · simp only [rescale, if_pos h1, sMax]; norm_num
  · by_cases h2 : s2 > 1
    · simp only [rescale, if_neg h1, if_pos h2]
      have h3 : 1 < Real.sqrt s2 := Real.lt_sqrt_of_sq_lt (by linarith)
      have h4 : Real.log (1 + Real.exp (Real.sqrt s2 - sMax)) < Real.sqrt s2 := by
        rw [Real.log_lt_iff_lt_exp (by positivity)]
        have e : Real.exp (Real.sqrt s2 - sMax) ≤ Real.exp (Real.sqrt s2) / 2 := by
          rw [Real.exp_sub]
          have : 2 ≤ Real.exp sMax := by
            have := Real.add_one_le_exp sMax
            have : (8 : ℝ) ≤ sMax := by norm_num [sMax]
            linarith
          gcongr
        have : 2 < Real.exp (Real.sqrt s2) := by
          have := Real.add_one_lt_exp (x := Real.sqrt s2) (by linarith)
          linarith
        linarith
      have : 0 < Real.sqrt s2 - Real.log (1 + Real.exp (Real.sqrt s2 - sMax)) := by linarith
      positivity
    · simpa only [rescale, if_neg h1, if_neg h2] using h

/-! ### The hole -/

theorem holeH_pos (s2 : ℝ) (h : 0 < s2) : 0 < (holeH s2).1 := by
  simp only [holeH]
  positivity

theorem holeH_ok (s2 : ℝ) (h : 0 < s2) : HasDerivAt (fun s => (holeH s).1) (holeH s2).2 s2 := by
  have hsq := Real.hasDerivAt_sqrt h.ne'
  have hid := hasDerivAt_id' s2
  have hr : 0 < Real.sqrt s2 := Real.sqrt_pos.2 h
  have hrr : Real.sqrt s2 * Real.sqrt s2 = s2 := Real.mul_self_sqrt h.le
  have hd : 0 < 1 + s2 * s2 * (0.187440 + Real.sqrt s2 * 0.00120824 + s2 * 0.0347188) := by positivity
  have hN := (hid.fun_mul hid).fun_mul ((hid.mul_const (0.0410834 : ℝ)).const_add 0.00979681)
  have hD := (((hid.fun_mul hid).fun_mul (((hsq.mul_const (0.00120824 : ℝ)).const_add 0.187440).fun_add (hid.mul_const (0.0347188 : ℝ))))).const_add 1
  simp only [holeH]
  refine (hN.fun_mul ((hasDerivAt_const s2 (1 : ℝ)).fun_div hD hd.ne')).congr_deriv ?_
  clear hN hD hsq
  generalize Real.sqrt s2 = r at *
  subst hrr
  have hq : 0 < 1 + r * r * (r * r) * (0.187440 + r * 0.00120824 + r * r * 0.0347188) := hd
  generalize hQ : 1 + r * r * (r * r) * (0.187440 + r * 0.00120824 + r * r * 0.0347188) = q at *
  norm_num
  field_simp
  ring

theorem holeF_ok (s2 : ℝ) (h : 0 < s2) : HasDerivAt (fun s => (holeF s).1) (holeF s2).2 s2 := by
  simp only [holeF]
  refine ((((holeH_ok s2 h).const_mul 0.5).const_sub hC).fun_sub ((hasDerivAt_id' s2).const_mul (1 / 27))).congr_deriv ?_
  ring

theorem expErfc_ok (c h : ℝ) (hc : 0 < c) (hh : 0 < h) : HasDerivAt (fun h => Real.exp (c * h) * Smear.erfc (Real.sqrt (c * h)))
    ((Real.exp (c * h) * Smear.erfc (Real.sqrt (c * h)) - (1 / Real.sqrt Real.pi) / Real.sqrt (c * h)) * c) h := by
  have hp : 0 < c * h := by positivity
  have h1 := (hasDerivAt_id' h).const_mul c
  have h2 := h1.sqrt hp.ne'
  have h3 := (Smear.erfc_deriv (Real.sqrt (c * h))).comp h h2
  refine (h1.exp.fun_mul h3).congr_deriv ?_
  have e : -Real.sqrt (c * h) ^ 2 = -(c * h) := by rw [Real.sq_sqrt hp.le]
  have e2 : Real.exp (c * h) * Real.exp (-(c * h)) = 1 := by rw [← Real.exp_add]; simp
  have hw : 0 < Real.sqrt (c * h) := Real.sqrt_pos.2 hp
  have hk : 0 < Real.sqrt Real.pi := Real.sqrt_pos.2 Real.pi_pos
  simp only [Function.comp_apply, e]
  generalize Real.exp (-(c * h)) = y at *
  generalize Smear.erfc (Real.sqrt (c * h)) = X
  generalize Real.sqrt (c * h) = w at *
  generalize Real.exp (c * h) = x at *
  generalize Real.sqrt Real.pi = k at *
  field_simp
  linear_combination (-1) * e2

theorem holeG_ok (h f : ℝ) (hh : 0 < h) : ∃ d, (holeG h f).2.1 = some d ∧ ∀ (a b : ℝ → ℝ) (a' b' : ℝ), a 0 = h → b 0 = f →
    HasDerivAt a a' 0 → HasDerivAt b b' 0 → HasDerivAt (fun t => (holeG (a t) (b t)).1) (d * a' + (holeG h f).2.2 * b') 0 := by
  have hc : (0 : ℝ) < 2.25 / hA := by norm_num [hA]
  have hne : ¬ Real.sqrt (2.25 / hA * h) = 0 := (Real.sqrt_pos.2 (by positivity)).ne'
  refine ⟨_, by simp only [holeG, if_neg hne, Option.map_some]; rfl, fun a b a' b' ha0 hb0 ha hb => ?_⟩
  have hX := comp_at (expErfc_ok _ h hc hh) ha0 ha
  have hDp : 0 < hD + h := by simp only [hD]; positivity
  have hD0 : hD + a 0 ≠ 0 := by rw [ha0]; exact hDp.ne'
  have hD := ha.const_add hD
  have hS := hD.sqrt hD0
  simp only [holeG]
  refine (hD.neg.fun_mul ((hb.const_mul 0.2).fun_add (hD.fun_mul ((hD.fun_mul ((hS.mul_const (0.8 * Real.sqrt Real.pi)).fun_mul
    ((hX.const_mul (Real.sqrt hA)).sub_const 1) |>.const_add (8 / 15 * hA))).const_add (4 / 15 * hB))))).congr_deriv ?_
  simp only [ha0, hb0, Pi.neg_apply]
  have hr : 0 < Real.sqrt (Jdftx.GGA.hD + h) := Real.sqrt_pos.2 hDp
  have hrr : Real.sqrt (Jdftx.GGA.hD + h) * Real.sqrt (Jdftx.GGA.hD + h) = Jdftx.GGA.hD + h := Real.mul_self_sqrt hDp.le
  clear hX hS hD
  generalize Real.exp (2.25 / hA * h) * Smear.erfc (Real.sqrt (2.25 / hA * h)) = X
  generalize Real.sqrt (2.25 / hA * h) = w at *
  generalize Real.sqrt (Jdftx.GGA.hD + h) = r at *
  generalize Jdftx.GGA.hD + h = D at *
  subst hrr
  generalize 2.25 / hA = c
  generalize hA = A
  generalize Real.sqrt A = sA
  generalize hB = B
  generalize Real.sqrt Real.pi = k
  generalize (X - 1 / k / w) * c = Y
  norm_num
  field_simp
  ring

theorem erfcArgPrefac_pos : 0 < erfcArgPrefac := by
  unfold erfcArgPrefac
  have := Real.pi_pos
  positivity

theorem holeI_ok (h f g w : ℝ) (hh : 0 < h) (hw : 0 < w) (a b c d : ℝ → ℝ) (a' b' c' d' : ℝ) (ha0 : a 0 = h) (hb0 : b 0 = f) (hc0 : c 0 = g)
    (hd0 : d 0 = w) (ha : HasDerivAt a a' 0) (hb : HasDerivAt b b' 0) (hc : HasDerivAt c c' 0) (hd : HasDerivAt d d' 0) :
    HasDerivAt (fun t => (holeI (a t) (b t) (c t) (d t)).1)
      ((holeI h f g w).2.1 * a' + (holeI h f g w).2.2.1 * b' + (holeI h f g w).2.2.2.1 * c' + (holeI h f g w).2.2.2.2 * d') 0 := by
  have k : ∀ (F : ℝ → ℝ → I2) (q : ℝ), IOk F (q + h) w →
      HasDerivAt (fun t => (F (q + a t) (d t)).v) ((F (q + h) w).v_A * a' + (F (q + h) w).v_B * d') 0 := by
    intro F q hF
    exact hF (fun t => q + a t) d a' d' (by simp only [ha0]) hd0 (ha.const_add q) hd
  have k1 : ∀ q : ℝ, 0 < q → IOk integral1 (q + h) w := fun q hq => integral1_ok _ _ (by linarith)
  have k2 : ∀ q : ℝ, 0 < q → IOk integral2 (q + h) w := fun q hq => integral2_ok _ _ (by linarith) hw
  have k3 : ∀ q : ℝ, 0 < q → IOk integral3 (q + h) w := fun q hq => integral3_ok _ _ (by linarith)
  have k5 : ∀ q : ℝ, 0 < q → IOk integral5 (q + h) w := fun q hq => integral5_ok _ _ (by linarith)
  have hDp : 0 < hD := by norm_num [hD]
  have f1 := k integral1 0.006601306 (k1 _ (by norm_num))
  have f2 := k integral1 0.259931140 (k1 _ (by norm_num))
  have f3 := k integral2 0.520352224 (k2 _ (by norm_num))
  have f4 := k integral2 0.118551043 (k2 _ (by norm_num))
  have f5 := k integral3 0.046003777 (k3 _ (by norm_num))
  have t1 := k integral1 hD (k1 _ hDp)
  have t2 := k integral3 hD (k3 _ hDp)
  have t3 := k integral5 hD (k5 _ hDp)
  simp only [holeI]
  refine ((((((f1.const_mul (-0.000205484)).fun_add (f2.const_mul (-0.109465240))).fun_add (f3.const_mul (-0.064078780))).fun_add
    (f4.const_mul (-0.008181735))).fun_add (f5.const_mul (-0.000110666))).fun_add
    (((t1.const_mul hB).fun_add (hb.fun_mul t2)).fun_add (hc.fun_mul t3))).congr_deriv ?_
  simp only [ha0, hb0, hc0, hd0]
  ring

theorem wpbe_ok (rs s2 : ℝ) (h : 0 < rs) (hs : 0 < s2) (h1 : s2 ≠ 1) (h2 : s2 ≠ 225) : XOk wpbeExchange rs s2 := by
  have hq := rescale_pos s2 hs
  have hh := holeH_pos _ hq
  obtain ⟨d, hd, hg⟩ := holeG_ok (holeH (rescale s2).1).1 (holeF (rescale s2).1).1 hh
  refine ⟨_, by simp only [wpbeExchange, hd, Option.map_some]; rfl, fun r s r' s' hr0 hs0 _ hr hs' => ?_⟩
  have q := comp_at (rescale_ok s2 h1 h2) hs0 hs'
  have q0 : (rescale (s 0)).1 = (rescale s2).1 := by rw [hs0]
  have a := comp_at (holeH_ok _ hq) q0 q
  have b := comp_at (holeF_ok _ hq) q0 q
  have c := hg _ _ _ _ (by simp only [q0]) (by simp only [q0]) a b
  have w := hr.const_mul erfcArgPrefac
  have I := holeI_ok (holeH (rescale s2).1).1 (holeF (rescale s2).1).1 (holeG (holeH (rescale s2).1).1 (holeF (rescale s2).1).1).1
    (erfcArgPrefac * rs) hh (mul_pos erfcArgPrefac_pos h) _ _ _ _ _ _ _ _ (by simp only [q0]) (by simp only [q0]) (by simp only [q0])
    (by simp only [hr0]) a b c w
  have sl := comp_at (slater_ok rs h) hr0 hr
  simp only [wpbeExchange]
  refine ((sl.const_mul (-8 / 9)).fun_mul I).congr_deriv ?_
  simp only [hr0, hs0]
  ring

end
end Jdftx.GGA
