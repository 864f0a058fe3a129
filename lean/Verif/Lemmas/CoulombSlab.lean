import Verif.Lemmas.CoulombStress
import Verif.Lemmas.Cavity
import Verif.Lemmas.BoxField
import Mathlib.Analysis.SpecialFunctions.Exp

/-!
# Lemmas for C91: slab transform, limits, indices
-/
namespace Jdftx.CoulK
noncomputable section
open M3 Ewald Real Filter Topology MeasureTheory

theorem even_integral (f : ℝ → ℝ) (hf : Continuous f) (he : ∀ z, f (-z) = f z) (h : ℝ) : ∫ z in (-h)..h, f z = 2 * ∫ z in (0 : ℝ)..h, f z := by
  rw [← intervalIntegral.integral_add_adjacent_intervals (hf.intervalIntegrable (-h) 0) (hf.intervalIntegrable 0 h)]
  have := intervalIntegral.integral_comp_neg (a := 0) (b := h) f
  simp only [he, neg_zero] at this
  rw [← this]; ring

theorem slabFT_ne (p q h : ℝ) (hp : 0 < p) (hh : 0 ≤ h) (hs : sin (q * h) = 0) :
    slabFT p q h = 4 * π * ((1 - exp (-p * h) * cos (q * h)) / (p ^ 2 + q ^ 2)) := by
  have hp' := hp.ne'
  have hpq : p ^ 2 + q ^ 2 ≠ 0 := by positivity
  rw [slabFT, even_integral]
  · have hd : ∀ z ∈ Set.uIcc 0 h, HasDerivAt (fun z => 2 * π / p * (exp (-p * z) * ((-p * cos (q * z) + q * sin (q * z)) / (p ^ 2 + q ^ 2))))
        (planePotential p z * cos (q * z)) z := by
      intro z hz
      rw [Set.uIcc_of_le hh] at hz
      have h1 := ((hasDerivAt_id z).const_mul (-p)).exp
      have h2 := (((hasDerivAt_id z).const_mul q).cos.const_mul (-p)).add (((hasDerivAt_id z).const_mul q).sin.const_mul q)
      refine ((h1.mul (h2.div_const (p ^ 2 + q ^ 2))).const_mul (2 * π / p)).congr_deriv ?_
      simp only [planePotential, if_neg hp', abs_of_nonneg hz.1, id, Pi.add_apply]
      generalize exp (-p * z) = E
      generalize cos (q * z) = c
      generalize sin (q * z) = s
      field_simp
      ring
    have hc : Continuous fun z => planePotential p z * cos (q * z) := by
      simp only [planePotential, if_neg hp']; fun_prop
    rw [intervalIntegral.integral_eq_sub_of_hasDerivAt hd (hc.intervalIntegrable _ _)]
    simp only [hs, mul_zero, exp_zero, cos_zero, sin_zero, mul_one, add_zero]
    field_simp
    ring
  · simp only [planePotential, if_neg hp']; fun_prop
  · intro z; simp only [abs_neg, planePotential, mul_neg, cos_neg]

theorem slabFT_plane (q h : ℝ) (hq : q ≠ 0) (hh : 0 ≤ h) (hs : sin (q * h) = 0) :
    slabFT 0 q h = 4 * π * ((1 - cos (q * h)) / q ^ 2) := by
  rw [slabFT, even_integral]
  · have hd : ∀ z ∈ Set.uIcc 0 h, HasDerivAt (fun z => -2 * π * (z * (sin (q * z) / q) + cos (q * z) / q ^ 2)) (planePotential 0 z * cos (q * z)) z := by
      intro z hz
      rw [Set.uIcc_of_le hh] at hz
      have h1 := (hasDerivAt_id z)
      refine (((h1.mul ((h1.const_mul q).sin.div_const q)).add ((h1.const_mul q).cos.div_const (q ^ 2))).const_mul (-2 * π)).congr_deriv ?_
      simp only [planePotential, if_true, abs_of_nonneg hz.1, id]
      field_simp
      ring
    have hc : Continuous fun z => planePotential 0 z * cos (q * z) := by
      simp only [planePotential, if_true]; fun_prop
    rw [intervalIntegral.integral_eq_sub_of_hasDerivAt hd (hc.intervalIntegrable _ _)]
    simp only [hs, mul_zero, cos_zero, sin_zero, zero_div]
    field_simp
    ring
  · simp only [planePotential, if_true]; fun_prop
  · intro z; simp only [abs_neg, planePotential, mul_neg, cos_neg]

theorem slabFT_zero (h : ℝ) (hh : 0 ≤ h) : slabFT 0 0 h = 4 * π * (-0.5 * h * h) := by
  rw [slabFT, even_integral]
  · have : ∫ z in (0 : ℝ)..h, planePotential 0 z * cos (0 * z) = ∫ z in (0 : ℝ)..h, -2 * π * z := by
      refine intervalIntegral.integral_congr fun z hz => ?_
      rw [Set.uIcc_of_le hh] at hz
      simp [planePotential, abs_of_nonneg hz.1]
    rw [this, intervalIntegral.integral_const_mul, integral_id]
    norm_num; ring
  · simp only [planePotential, if_true]; fun_prop
  · intro z; simp only [abs_neg, planePotential, mul_neg, cos_neg]

/-- `erfc` lies below the Gaussian. -/
theorem erfc_le_gauss {x : ℝ} (hx : 1 ≤ x) : Smear.erfc x ≤ exp (-x ^ 2) := by
  have hanti : AntitoneOn (fun x => exp (-x ^ 2) - Smear.erfc x) (Set.Ici 1) := by
    have hd : ∀ x : ℝ, HasDerivAt (fun x => exp (-x ^ 2) - Smear.erfc x) (exp (-x ^ 2) * (-(2 * x)) + 2 / sqrt π * exp (-x ^ 2)) x := by
      intro x
      refine ((((hasDerivAt_id x).pow 2).neg.exp).sub (Smear.erfc_deriv x)).congr_deriv ?_
      simp
    refine antitoneOn_of_deriv_nonpos (convex_Ici 1) (fun x _ => (hd x).continuousAt.continuousWithinAt)
      (fun x _ => (hd x).differentiableAt.differentiableWithinAt) fun x hx => ?_
    rw [interior_Ici] at hx
    have hx : 1 < x := hx
    rw [(hd x).deriv]
    have h1 : 1 ≤ sqrt π := by
      rw [show (1 : ℝ) = sqrt 1 by simp]; exact sqrt_le_sqrt (by linarith [pi_gt_three])
    have h2 : 2 / sqrt π ≤ 2 := by
      rw [div_le_iff₀ (by linarith)]; linarith
    nlinarith [exp_pos (-x ^ 2)]
  have hlim : Tendsto (fun x => exp (-x ^ 2) - Smear.erfc x) atTop (𝓝 0) := by
    have h1 : Tendsto (fun x : ℝ => exp (-x ^ 2)) atTop (𝓝 0) :=
      tendsto_exp_atBot.comp (tendsto_neg_atTop_atBot.comp (tendsto_pow_atTop two_ne_zero))
    simpa using h1.sub Smear.erfc_top
  have : 0 ≤ exp (-x ^ 2) - Smear.erfc x := by
    refine le_of_tendsto hlim ?_
    filter_upwards [eventually_ge_atTop x] with y hy
    exact hanti hx (le_trans hx hy) hy
  linarith

theorem sq_gauss : Tendsto (fun x : ℝ => x ^ 2 * exp (-x ^ 2)) atTop (𝓝 0) := by
  have h := (tendsto_pow_mul_exp_neg_atTop_nhds_zero 1).comp (tendsto_pow_atTop (α := ℝ) two_ne_zero)
  refine h.congr fun x => ?_
  simp

theorem sq_erfc : Tendsto (fun x : ℝ => x ^ 2 * Smear.erfc x) atTop (𝓝 0) := by
  refine squeeze_zero' (Eventually.of_forall fun x => mul_nonneg (sq_nonneg x) (GGA.erfc_nonneg x)) ?_ sq_gauss
  filter_upwards [eventually_ge_atTop 1] with x hx
  exact mul_le_mul_of_nonneg_left (erfc_le_gauss hx) (sq_nonneg x)

theorem lin_gauss : Tendsto (fun x : ℝ => x * exp (-x ^ 2)) atTop (𝓝 0) := by
  refine squeeze_zero' ?_ ?_ sq_gauss
  · filter_upwards [eventually_ge_atTop 0] with x hx
    exact mul_nonneg hx (exp_pos _).le
  · filter_upwards [eventually_ge_atTop 1] with x hx
    exact mul_le_mul_of_nonneg_right (by nlinarith) (exp_pos _).le

theorem erfc_tendsto_zero (omega : ℝ) (ho : 0 < omega) :
    Tendsto (fun Rc => ballFT (fun r => Smear.erfc (omega * r) / r) Rc 0) atTop (𝓝 (π / (omega * omega))) := by
  have ho' := ho.ne'
  have hsp : sqrt π ≠ 0 := (sqrt_pos.2 pi_pos).ne'
  simp only [ballFT_erfc_zero, erfc_moment _ _ ho']
  have hx : Tendsto (fun Rc : ℝ => omega * Rc) atTop atTop := tendsto_id.const_mul_atTop ho
  have h1 := (sq_erfc.comp hx).const_mul (1 / (2 * omega ^ 2))
  have h2 := (lin_gauss.comp hx).const_mul (1 / (2 * omega ^ 2 * sqrt π))
  have h3 := ((Smear.erfc_top.comp hx).const_sub 1).const_mul (1 / (4 * omega ^ 2))
  have h := ((h1.sub h2).add h3).const_mul (4 * π)
  refine (h.congr fun Rc => ?_).trans (le_of_eq ?_)
  · simp only [Function.comp]
    field_simp
  · congr 1
    field_simp
    ring

/-! ### Indices -/

section idx
open Box

theorem realIndex_inside (S : Size) (v : IV) (hx : 2 * |v.x| < S.s0) (hy : 2 * |v.y| < S.s1) (hz : 2 * |v.z| < S.s2) :
    ∃ u, ValidH S u ∧ (u = v ∨ u = ⟨-v.x, -v.y, -v.z⟩) ∧ realIndex S v = halfGindex S u := by
  have ax := abs_lt.1 (show |2 * v.x| < (S.s0 : Int) by rw [abs_mul]; simpa using hx)
  have ay := abs_lt.1 (show |2 * v.y| < (S.s1 : Int) by rw [abs_mul]; simpa using hy)
  have az := abs_lt.1 (show |2 * v.z| < (S.s2 : Int) by rw [abs_mul]; simpa using hz)
  by_cases h : v.z < 0
  · refine ⟨⟨-v.x, -v.y, -v.z⟩, ⟨⟨⟨?_, ?_⟩, ⟨?_, ?_⟩, ⟨?_, ?_⟩⟩, ?_⟩, Or.inr rfl, ?_⟩
    · show -(S.s0 : Int) < 2 * -v.x; omega
    · show 2 * -v.x ≤ (S.s0 : Int); omega
    · show -(S.s1 : Int) < 2 * -v.y; omega
    · show 2 * -v.y ≤ (S.s1 : Int); omega
    · show -(S.s2 : Int) < 2 * -v.z; omega
    · show 2 * -v.z ≤ (S.s2 : Int); omega
    · show 0 ≤ -v.z; omega
    · simp only [realIndex, if_pos h, halfGindex, wrapGcoords, wrap1]
      rw [if_neg (show ¬ -v.z < 0 by omega), add_comm (1 : Int)]
  · refine ⟨v, ⟨⟨⟨by omega, by omega⟩, ⟨by omega, by omega⟩, ⟨by omega, by omega⟩⟩, by omega⟩, Or.inl rfl, ?_⟩
    simp only [realIndex, if_neg h, halfGindex, wrapGcoords, wrap1]
    rw [add_comm (1 : Int)]

/-- Congruent to `v` or to `-v`. -/
theorem realIndex_valid (S : Size) (v : IV) (hv : ValidG S v) :
    ∃ u, ValidH S u ∧ realIndex S v = halfGindex S u ∧
      (((S.s0 : Int) ∣ u.x - v.x ∧ (S.s1 : Int) ∣ u.y - v.y ∧ u.z = v.z) ∨
       ((S.s0 : Int) ∣ u.x + v.x ∧ (S.s1 : Int) ∣ u.y + v.y ∧ u.z = -v.z)) := by
  obtain ⟨⟨x1, x2⟩, ⟨y1, y2⟩, ⟨z1, z2⟩⟩ := hv
  by_cases h : v.z < 0
  · refine ⟨⟨neg1 S.s0 v.x, neg1 S.s1 v.y, -v.z⟩, ⟨⟨neg1_centred ⟨x1, x2⟩, neg1_centred ⟨y1, y2⟩, ?_⟩, ?_⟩, ?_, Or.inr ⟨?_, ?_, rfl⟩⟩
    · constructor
      · show -(S.s2 : Int) < 2 * -v.z; omega
      · show 2 * -v.z ≤ (S.s2 : Int); omega
    · show 0 ≤ -v.z; omega
    · simp only [realIndex, if_pos h, halfGindex, wrapGcoords]
      have e1 : ∀ (s : Nat) (g : Int), -(s : Int) < 2 * g → 2 * g ≤ s → wrap1 s (neg1 s g) = if -g < 0 then -g + s else -g := by
        intro s g h1 h2
        rw [← mirror_wrap ⟨h1, h2⟩]
        unfold mirror1 wrap1
        split_ifs <;> omega
      rw [e1 _ _ x1 x2, e1 _ _ y1 y2, wrap1, if_neg (show ¬ -v.z < 0 by omega), add_comm (1 : Int)]
    · have := neg1_dvd (s := S.s0) v.x; rwa [add_comm] at this
    · have := neg1_dvd (s := S.s1) v.y; rwa [add_comm] at this
  · refine ⟨v, ⟨⟨⟨x1, x2⟩, ⟨y1, y2⟩, ⟨z1, z2⟩⟩, not_lt.1 h⟩, ?_, Or.inl ⟨by simp, by simp, rfl⟩⟩
    simp only [realIndex, if_neg h, halfGindex, wrapGcoords, wrap1]
    rw [add_comm (1 : Int)]

theorem superS_ge (S : Fin 3 → Nat) (super : Mat Int) (k : Fin 3) :
    2 * ∑ j, ((S j : Int) / 2 + 1) * |super j k| ≤ (superS S super k : Int) := by
  have hmax : ∀ (f : (Fin 3 → Int) → Nat) (l : List (Fin 3 → Int)) (m : Nat), m ≤ l.foldl (fun m s => if f s > m then f s else m) m ∧
      ∀ s ∈ l, f s ≤ l.foldl (fun m s => if f s > m then f s else m) m := by
    intro f l
    induction l with
    | nil => intro m; simp
    | cons a l ih =>
      intro m
      simp only [List.foldl_cons, List.mem_cons, forall_eq_or_imp]
      obtain ⟨h1, h2⟩ := ih (if f a > m then f a else m)
      refine ⟨le_trans ?_ h1, le_trans ?_ h1, h2⟩ <;> split_ifs <;> omega
  let sg : Fin 3 → Int := fun j => if super j k < 0 then -1 else 1
  have hs : ∀ j, sg j * super j k = |super j k| := by
    intro j; simp only [sg]; split
    · rw [abs_of_neg ‹_›]; ring
    · rw [abs_of_nonneg (not_lt.1 ‹_›)]; ring
  have hmem : sg ∈ [vec 1 1 1, vec 1 1 (-1), vec 1 (-1) 1, vec 1 (-1) (-1), vec (-1) 1 1, vec (-1) 1 (-1), vec (-1) (-1) 1, vec (-1) (-1) (-1 : Int)] := by
    have hv : sg = vec (sg 0) (sg 1) (sg 2) := by funext j; match j with | 0 => rfl | 1 => rfl | 2 => rfl
    have hc : ∀ j, sg j = 1 ∨ sg j = -1 := by intro j; simp only [sg]; split <;> simp
    rw [hv]
    rcases hc 0 with a | a <;> rcases hc 1 with b | b <;> rcases hc 2 with c | c <;> rw [a, b, c] <;> simp
  have h := (hmax (fun s => 2 * (mulMV (transpose super) (fun j => s j * ((S j : Int) / 2 + 1)) k).natAbs) _ 0).2 sg hmem
  have h' : ((2 * (mulMV (transpose super) (fun j => sg j * ((S j : Int) / 2 + 1)) k).natAbs : Nat) : Int) ≤ (superS S super k : Int) := by
    exact_mod_cast h
  refine le_trans ?_ h'
  push_cast
  have e : mulMV (transpose super) (fun j => sg j * ((S j : Int) / 2 + 1)) k = ∑ j, ((S j : Int) / 2 + 1) * |super j k| := by
    simp only [mulMV, transpose, Fin.sum_univ_three, ← hs]; ring
  rw [e]
  have := le_abs_self (∑ j, ((S j : Int) / 2 + 1) * |super j k|)
  linarith

end idx
end
end Jdftx.CoulK
