import Verif.Lemmas.GGAHole
import Verif.Lemmas.GGACorr
import Verif.Spec.GGA

/-!
# Lemmas for C87: from reduced variables to densities and gradients
-/
namespace Jdftx.GGA
noncomputable section
open Filter Topology
open Jdftx.LDA (V1 V2 nCutoff rsOf)

theorem s2Sigma_pos (nCount ns : ℝ) (hc : 0 < nCount) (h : 0 < ns) : 0 < s2Sigma nCount ns := by
  unfold s2Sigma
  have := Real.pi_pos
  positivity

theorem s2Sigma_deriv (nCount ns : ℝ) (h : 0 < ns) : HasDerivAt (s2Sigma nCount) (-8 / 3 * s2Sigma nCount ns / ns) ns := by
  have h1 := (Real.hasDerivAt_rpow_const (x := ns) (p := (-8 / 3 : ℝ)) (Or.inl h.ne')).mul_const
    ((0.25 * nCount * nCount) * (3 * Real.pi * Real.pi) ^ (-2 / 3 : ℝ))
  refine h1.congr_deriv ?_
  rw [Real.rpow_sub_one h.ne']
  unfold s2Sigma
  ring

/-- The code's reduced gradient is the published one of the scaled density. -/
theorem s2_eq (nCount n sigma : ℝ) (hc : 0 < nCount) (h : 0 < n) :
    s2Sigma nCount (n * nCount) * sigma = sSquared (n * nCount) (nCount ^ 2 * sigma) := by
  have hp := Real.pi_pos
  have hn : 0 < n * nCount := by positivity
  have hk : kF (n * nCount) ^ 2 = (3 * Real.pi * Real.pi) ^ (2 / 3 : ℝ) * (n * nCount) ^ (2 / 3 : ℝ) := by
    unfold kF
    rw [← Real.rpow_natCast, ← Real.rpow_mul (by positivity), show 3 * Real.pi ^ 2 * (n * nCount) = (3 * Real.pi * Real.pi) * (n * nCount) by ring,
      Real.mul_rpow (by positivity) hn.le]
    norm_num
  have e1 : (n * nCount) ^ (-8 / 3 : ℝ) = ((n * nCount) ^ (2 / 3 : ℝ) * (n * nCount) ^ 2)⁻¹ := by
    rw [← Real.rpow_natCast (n * nCount) 2, ← Real.rpow_add hn, ← Real.rpow_neg hn.le]; norm_num
  have e2 : (3 * Real.pi * Real.pi) ^ (-2 / 3 : ℝ) = ((3 * Real.pi * Real.pi) ^ (2 / 3 : ℝ))⁻¹ := by
    rw [← Real.rpow_neg (by positivity)]; norm_num
  have q1 : 0 < (n * nCount) ^ (2 / 3 : ℝ) := by positivity
  have q2 : 0 < (3 * Real.pi * Real.pi) ^ (2 / 3 : ℝ) := by positivity
  unfold sSquared s2Sigma
  rw [e1, e2, show (2 * kF (n * nCount) * (n * nCount)) ^ 2 = 4 * kF (n * nCount) ^ 2 * (n * nCount) ^ 2 by ring, hk]
  norm_num
  field_simp

theorem evalX_ok (v : XVar) (rs s2 : ℝ) (h : 0 < rs) (hs : 0 ≤ s2) (hw : v = .wpbe → 0 < s2 ∧ s2 ≠ 1 ∧ s2 ≠ 225) : XOk (evalX v) rs s2 := by
  cases v
  · exact pbeX_ok _ _ rs s2 (by norm_num) (by norm_num) h hs
  · exact pbeX_ok _ _ rs s2 (by norm_num) (by norm_num) h hs
  · exact pw91X_ok rs s2 h hs
  · obtain ⟨a, b, c⟩ := hw rfl
    exact wpbe_ok rs s2 h a b c
  · exact vw_ok rs s2 h
  · exact pw91K_ok rs s2 h hs

/-- One turn of the loop over spins: the reported derivatives along every curve. -/
theorem xTurn_curve (v : XVar) (nCount scaleFac n sigma : ℝ) (hc : 0 < nCount) (hs : SmoothX v (n * nCount) (nCount ^ 2 * sigma)) (h0 : 0 ≤ sigma) :
    ∃ dn ds, (xTurn v nCount scaleFac n sigma).E_n = some dn ∧ (xTurn v nCount scaleFac n sigma).E_sigma = some ds ∧
    ∀ (a b : ℝ → ℝ) (a' b' : ℝ), a 0 = n → b 0 = sigma → (∀ t, 0 ≤ b t) → HasDerivAt a a' 0 → HasDerivAt b b' 0 →
      HasDerivAt (fun t => (xTurn v nCount scaleFac (a t) (b t)).E) (dn * a' + ds * b') 0 := by
  obtain ⟨hp, hcut, hw⟩ := hs
  have hn : 0 < n := (pos_iff_pos_of_mul_pos hp).2 hc
  rcases lt_or_gt_of_ne hcut with hlt | hgt
  · refine ⟨0, 0, by simp only [xTurn, if_pos hlt], by simp only [xTurn, if_pos hlt], fun a b a' b' ha0 hb0 hbp ha hb => ?_⟩
    have hev : (fun t => (xTurn v nCount scaleFac (a t) (b t)).E) =ᶠ[𝓝 0] fun _ => 0 := by
      have hm := ha.mul_const nCount
      filter_upwards [hm.continuousAt.eventually (gt_mem_nhds (show a 0 * nCount < nCutoff by rw [ha0]; exact hlt))] with t ht
      simp only [xTurn, if_pos ht]
    refine HasDerivAt.congr_of_eventuallyEq ?_ hev
    exact (hasDerivAt_const _ _).congr_deriv (by ring)
  · have hw' : v = .wpbe → 0 < s2Sigma nCount (n * nCount) * sigma ∧ s2Sigma nCount (n * nCount) * sigma ≠ 1 ∧ s2Sigma nCount (n * nCount) * sigma ≠ 225 := by
      intro hv
      obtain ⟨w1, w2, w3⟩ := hw hv
      rw [s2_eq nCount n sigma hc hn]
      refine ⟨?_, w2, w3⟩
      rw [← s2_eq nCount n sigma hc hn]
      have : 0 < sigma := by
        rcases eq_or_lt_of_le h0 with k | k
        · rw [← k] at w1; simp at w1
        · exact k
      exact mul_pos (s2Sigma_pos _ _ hc hp) this
    obtain ⟨d, hd, hX⟩ := evalX_ok v (rsOf (n * nCount)) (s2Sigma nCount (n * nCount) * sigma) (LDA.rsOf_pos _ hp)
      (mul_nonneg (s2Sigma_pos _ _ hc hp).le h0) hw'
    refine ⟨_, _, by simp only [xTurn, if_neg (not_lt.2 hgt.le), hd, Option.map_some]; rfl,
      by simp only [xTurn, if_neg (not_lt.2 hgt.le), hd, Option.map_some]; rfl, fun a b a' b' ha0 hb0 hbp ha hb => ?_⟩
    have hm := ha.mul_const nCount
    have hm0 : a 0 * nCount = n * nCount := by rw [ha0]
    -- the curve stays above the cutoff; outside it the reduced gradient is replaced to keep it nonnegative
    have hev : (fun t => (xTurn v nCount scaleFac (a t) (b t)).E) =ᶠ[𝓝 0]
        fun t => scaleFac * (a t * (evalX v (rsOf (a t * nCount)) (|s2Sigma nCount (a t * nCount)| * b t)).e) := by
      filter_upwards [hm.continuousAt.eventually (lt_mem_nhds (show nCutoff < a 0 * nCount by rw [ha0]; exact hgt))] with t ht
      have hpos : 0 < a t * nCount := lt_trans (by norm_num [nCutoff]) ht
      simp only [xTurn, if_neg (not_lt.2 (le_of_lt ht)), abs_of_pos (s2Sigma_pos _ _ hc hpos)]
    refine HasDerivAt.congr_of_eventuallyEq ?_ hev
    have hr := comp_at (LDA.rsOf_deriv _ hp) hm0 hm
    have hss := comp_at (s2Sigma_deriv nCount _ hp) hm0 hm
    have hss' : HasDerivAt (fun t => |s2Sigma nCount (a t * nCount)|) (-8 / 3 * s2Sigma nCount (n * nCount) / (n * nCount) * (a' * nCount)) 0 := by
      refine hss.congr_of_eventuallyEq ?_
      filter_upwards [hm.continuousAt.eventually (lt_mem_nhds (show 0 < a 0 * nCount by rw [ha0]; exact hp))] with t ht
      exact abs_of_pos (s2Sigma_pos _ _ hc ht)
    have hs2 := hss'.fun_mul hb
    have habs : |s2Sigma nCount (a 0 * nCount)| = s2Sigma nCount (n * nCount) := by rw [ha0]; exact abs_of_pos (s2Sigma_pos _ _ hc hp)
    have he := hX (fun t => rsOf (a t * nCount)) (fun t => |s2Sigma nCount (a t * nCount)| * b t) _ _ (by simp only [ha0]) (by simp only [habs, hb0])
      (fun t => mul_nonneg (abs_nonneg _) (hbp t)) hr hs2
    refine ((ha.fun_mul he).const_mul scaleFac).congr_deriv ?_
    rw [habs, hb0, ha0]
    generalize (evalX v (rsOf (n * nCount)) (s2Sigma nCount (n * nCount) * sigma)).e_rs = er
    generalize (evalX v (rsOf (n * nCount)) (s2Sigma nCount (n * nCount) * sigma)).e = e
    generalize s2Sigma nCount (n * nCount) = s
    generalize rsOf (n * nCount) = r
    field_simp
    ring

/-! ### Correlation -/

theorem gOf_pos (z : ℝ) (h1 : -1 ≤ z) (h2 : z ≤ 1) : 0 < gOf z := by
  unfold gOf
  have a : 0 ≤ (1 + z) ^ (2 / 3 : ℝ) := Real.rpow_nonneg (by linarith) _
  have b : 0 ≤ (1 - z) ^ (2 / 3 : ℝ) := Real.rpow_nonneg (by linarith) _
  rcases le_or_gt 0 z with h | h
  · have : 0 < (1 + z) ^ (2 / 3 : ℝ) := Real.rpow_pos_of_pos (by linarith) _
    positivity
  · have : 0 < (1 - z) ^ (2 / 3 : ℝ) := Real.rpow_pos_of_pos (by linarith) _
    positivity

theorem gOf_deriv (z : ℝ) (h1 : nCutoff < 1 + z) (h2 : nCutoff < 1 - z) : HasDerivAt gOf (gZeta z) z := by
  have c0 : 0 < nCutoff := by norm_num [nCutoff]
  have a := ((hasDerivAt_id' z).const_add 1).rpow_const (p := 2 / 3) (Or.inl (by linarith : (1 : ℝ) + z ≠ 0))
  have b := ((hasDerivAt_id' z).const_sub 1).rpow_const (p := 2 / 3) (Or.inl (by linarith : (1 : ℝ) - z ≠ 0))
  refine ((a.fun_add b).const_mul 0.5).congr_deriv ?_
  simp only [gZeta, if_pos (show 1 + z > nCutoff from h1), if_pos (show 1 - z > nCutoff from h2)]
  rw [show (2 / 3 : ℝ) - 1 = -1 / 3 by norm_num]
  ring

theorem t2Sigma_curve {a g : ℝ → ℝ} {n G a' g' : ℝ} (ha0 : a 0 = n) (hg0 : g 0 = G) (hn : 0 < n) (hG : 0 < G) (ha : HasDerivAt a a' 0) (hg : HasDerivAt g g' 0) :
    HasDerivAt (fun t => t2Sigma (a t) (g t)) (t2Sigma n G * (-7 / 3 / n * a' - 2 / G * g')) 0 := by
  have hne : a 0 ≠ 0 := by rw [ha0]; exact hn.ne'
  have hge : g 0 * g 0 ≠ 0 := by rw [hg0]; positivity
  have h1 := (((ha.rpow_const (p := (-7 / 3 : ℝ)) (Or.inl hne)).const_mul ((Real.pi / 3) ^ (1 / 3 : ℝ) / 16)).fun_div (hg.fun_mul hg) hge)
  refine h1.congr_deriv ?_
  rw [ha0, hg0, Real.rpow_sub_one hn.ne']
  unfold t2Sigma
  generalize n ^ (-7 / 3 : ℝ) = p
  generalize (Real.pi / 3) ^ (1 / 3 : ℝ) = q
  field_simp
  ring

/-- Correlation along a curve of total density, polarisation and squared gradient. -/
theorem cPoint_curve (v : CVar) (scaleFac n z sigma : ℝ) (hn : 0 < n) (hcut : n ≠ nCutoff) (h1 : nCutoff < 1 + z) (h2 : nCutoff < 1 - z)
    (h0 : 0 ≤ sigma) (a c b : ℝ → ℝ) (a' c' b' : ℝ) (ha0 : a 0 = n) (hc0 : c 0 = z) (hb0 : b 0 = sigma) (ha : HasDerivAt a a' 0)
    (hc : HasDerivAt c c' 0) (hb : HasDerivAt b b' 0) :
    ∃ ez, HasDerivAt (fun t => (cPoint v scaleFac (a t) (c t) (b t)).1)
      (((cPoint v scaleFac n z sigma).2.1 + ez * (z - 1)) * a' + ez * n * c' + (cPoint v scaleFac n z sigma).2.2.2 * b') 0 ∧
      (cPoint v scaleFac n z sigma).2.1 + ez * (z - 1) = (cPoint v scaleFac n z sigma).2.2.1 + ez * (z + 1) := by
  have cp : 0 < nCutoff := by norm_num [nCutoff]
  rcases lt_or_gt_of_ne hcut with hlt | hgt
  · refine ⟨0, ?_, by simp only [cPoint, if_pos hlt]; ring⟩
    have hev : (fun t => (cPoint v scaleFac (a t) (c t) (b t)).1) =ᶠ[𝓝 0] fun _ => 0 := by
      filter_upwards [ha.continuousAt.eventually (gt_mem_nhds (show a 0 < nCutoff by rw [ha0]; exact hlt))] with t ht
      simp only [cPoint, if_pos ht]
    refine HasDerivAt.congr_of_eventuallyEq ?_ hev
    simp only [cPoint, if_pos hlt]
    exact (hasDerivAt_const _ _).congr_deriv (by ring)
  · have hev : (fun t => (cPoint v scaleFac (a t) (c t) (b t)).1) =ᶠ[𝓝 0]
        fun t => scaleFac * (a t * (evalC v (rsOf (a t)) (c t) (gOf (c t)) (t2Sigma (a t) (gOf (c t)) * b t)).e) := by
      filter_upwards [ha.continuousAt.eventually (lt_mem_nhds (show nCutoff < a 0 by rw [ha0]; exact hgt))] with t ht
      simp only [cPoint, if_neg (not_lt.2 (le_of_lt ht))]
    have hG := gOf_pos z (by linarith) (by linarith)
    have hgc := comp_at (gOf_deriv z h1 h2) hc0 hc
    have ht := (t2Sigma_curve ha0 (by simp only [hc0]) hn hG ha hgc).fun_mul hb
    have hr := comp_at (LDA.rsOf_deriv n hn) ha0 ha
    have t2p : 0 ≤ t2Sigma n (gOf z) * sigma := by
      refine mul_nonneg ?_ h0
      unfold t2Sigma
      have := Real.pi_pos
      positivity
    have he := evalC_ok v (rsOf n) z (gOf z) (t2Sigma n (gOf z) * sigma) (LDA.rsOf_pos n hn) (by linarith) (by linarith) hG t2p
      (fun t => rsOf (a t)) c (fun t => gOf (c t)) (fun t => t2Sigma (a t) (gOf (c t)) * b t) _ _ _ _ (by simp only [ha0]) hc0 (by simp only [hc0])
      (by simp only [ha0, hc0, hb0]) hr hc hgc ht
    refine ⟨scaleFac * ((evalC v (rsOf n) z (gOf z) (t2Sigma n (gOf z) * sigma)).e_zeta + ((evalC v (rsOf n) z (gOf z) (t2Sigma n (gOf z) * sigma)).e_g
      - 2 * (evalC v (rsOf n) z (gOf z) (t2Sigma n (gOf z) * sigma)).e_t2 * (t2Sigma n (gOf z) * sigma) / gOf z) * gZeta z), ?_, ?_⟩
    · refine HasDerivAt.congr_of_eventuallyEq ?_ hev
      refine ((ha.fun_mul he).const_mul scaleFac).congr_deriv ?_
      simp only [cPoint, if_neg (not_lt.2 hgt.le), ha0, hc0, hb0]
      generalize (evalC v (rsOf n) z (gOf z) (t2Sigma n (gOf z) * sigma)).e = e
      generalize (evalC v (rsOf n) z (gOf z) (t2Sigma n (gOf z) * sigma)).e_rs = er
      generalize (evalC v (rsOf n) z (gOf z) (t2Sigma n (gOf z) * sigma)).e_zeta = ez
      generalize (evalC v (rsOf n) z (gOf z) (t2Sigma n (gOf z) * sigma)).e_g = eg
      generalize (evalC v (rsOf n) z (gOf z) (t2Sigma n (gOf z) * sigma)).e_t2 = et
      generalize t2Sigma n (gOf z) = T
      generalize gZeta z = gz
      generalize gOf z = g at *
      generalize rsOf n = r
      field_simp
      ring
    · simp only [cPoint, if_neg (not_lt.2 hgt.le)]
      ring

end
end Jdftx.GGA
