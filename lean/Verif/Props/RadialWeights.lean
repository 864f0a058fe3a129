import Verif.Lemmas.RadialWeights
/-!
# C119: weights on a radial grid integrate natural cubic splines exactly

The weights computed for arbitrary increasing nodes integrate every natural cubic spline exactly ("exact for the integration
of cubic splines with natural boundary conditions", RadialFunction.h:120-122). The Bessel transform of such a function, which
multiplies these weights by the factors of Simpson's rule, does not.
-/
namespace Jdftx.RadW

/-- Nodes after the correction of the first one are positive and increasing, so no difference or square of nodes that the
code divides by is zero. -/
theorem C119_nodes (r : ℕ → ℝ) (n : ℕ) (h : valid r n) :
    (∀ i < n, 0 < (initWeights r n).1 i) ∧ (∀ i, i + 1 < n → (initWeights r n).1 i < (initWeights r n).1 (i + 1)) ∧
    (∀ i, 0 < i ∨ r 0 ≠ 0 → (initWeights r n).1 i = r i) ∧ (r 0 = 0 → (initWeights r n).1 0 = r 1 / 1000000) := by
  obtain ⟨hn, h0, hi⟩ := h
  have e1 : ∀ i, 0 < i ∨ r 0 ≠ 0 → (initWeights r n).1 i = r i := by
    intro i h
    simp only [initWeights, fixFirst]
    rw [if_neg]
    rintro ⟨a, b⟩
    rcases h with h | h
    · omega
    · exact h b
  have e2 : r 0 = 0 → (initWeights r n).1 0 = r 1 / 1000000 := by
    intro h
    simp only [initWeights, fixFirst, h, and_self, if_true]; ring
  have hmono : ∀ i, i + 1 < n → (initWeights r n).1 i < (initWeights r n).1 (i + 1) := by
    intro i hl
    rw [e1 (i + 1) (Or.inl (by omega))]
    by_cases h : 0 < i ∨ r 0 ≠ 0
    · rw [e1 i h]; exact hi i hl
    · have hi0 : i = 0 := by omega
      have hr0 : r 0 = 0 := by
        by_contra hc; exact h (Or.inr hc)
      subst hi0
      rw [e2 hr0]
      have := hi 0 (by omega)
      rw [hr0] at this
      simp only [zero_add] at this ⊢
      linarith
  refine ⟨?_, hmono, e1, e2⟩
  intro i hl
  induction i with
  | zero =>
    by_cases h : r 0 = 0
    · rw [e2 h]
      have := hi 0 (by omega)
      rw [h] at this
      simp only [zero_add] at this
      linarith
    · rw [e1 0 (Or.inr h)]; exact lt_of_le_of_ne h0 (Ne.symm h)
  | succ i ih => exact lt_trans (ih (by omega)) (hmono i hl)

/-- No pivot of the elimination is zero, whatever the samples. -/
theorem C119_pivots (r y : ℕ → ℝ) (n i : ℕ) (hn : 2 ≤ n) (h : ∀ i, i + 1 < n → r i < r (i + 1)) (hi : i < n) :
    0 < (eliminate (assemble r y (n - 1)) i).1 :=
  (pivot r y (n - 1) (fun i hi => h i (by omega)) (by omega) i (by omega)).1

/-- The weights integrate every natural cubic spline on the nodes exactly: the sum of weight times squared radius times
sample is the integral of squared radius times spline, from zero to the last node. Missing: the transform, see below. -/
theorem C119_exact_partial (r f : ℕ → ℝ) (m : ℕ) (h : valid r (m + 2)) (s : Pieces)
    (hs : NaturalSpline (initWeights r (m + 2)).1 f m s) :
    ∑ j ∈ Finset.range (m + 2), (initWeights r (m + 2)).2 j * (initWeights r (m + 2)).1 j ^ 2 * f j =
      radialIntegral (initWeights r (m + 2)).1 m s := by
  obtain ⟨hp, hm, _, _⟩ := C119_nodes r (m + 2) h
  have hw : (initWeights r (m + 2)).2 = weight (initWeights r (m + 2)).1 (m + 2) := rfl
  rw [hw]
  generalize (initWeights r (m + 2)).1 = q at *
  have hq : ∀ i < m + 1, q i < q (i + 1) := fun i hi => hm i (by omega)
  have e : ∑ j ∈ Finset.range (m + 2), weight q (m + 2) j * q j ^ 2 * f j =
      ∑ j ∈ Finset.range (m + 2), f j * integrate q (unit j) (slopes q (unit j) (m + 2)) (m + 1) := by
    refine Finset.sum_congr rfl fun j hj => ?_
    have := (hp j (Finset.mem_range.mp hj)).ne'
    unfold weight
    rw [show m + 2 - 1 = m + 1 by omega]
    field_simp
  rw [e, ← integrate_sum, ← spline_integral q f m s hs]
  have hsum : Eqs q (fun i => ∑ j ∈ Finset.range (m + 2), f j * unit j i)
      (fun i => ∑ j ∈ Finset.range (m + 2), f j * slopes q (unit j) (m + 2) i) (m + 1) :=
    eqs_sum q f unit (fun j => slopes q (unit j) (m + 2)) (m + 1) (m + 2) fun j =>
      (rows_iff q _ _ (m + 1) hq (by omega)).mpr ((rows_unique q _ _ (m + 1) hq (by omega)).mpr fun _ _ => rfl)
  have hu : ∀ i ≤ m + 1, ∑ j ∈ Finset.range (m + 2), f j * unit j i = f i := fun i hi => unit_sum f (m + 2) i (by omega)
  have heq : Eqs q f (fun i => ∑ j ∈ Finset.range (m + 2), f j * slopes q (unit j) (m + 2) i) (m + 1) := by
    obtain ⟨h1, h2, h3⟩ := hsum
    simp only [Nat.add_sub_cancel] at h3
    refine ⟨?_, fun i hi => ?_, ?_⟩
    · rw [h1]; unfold rhs; simp only [hu 0 (by omega), hu (0 + 1) (by omega)]
    · rw [h2 i hi]; unfold rhs; simp only [hu i (by omega), hu (i + 1) (by omega), hu (i + 1 + 1) (by omega)]
    · simp only [Nat.add_sub_cancel]
      rw [h3]; unfold rhs; simp only [hu m (by omega), hu (m + 1) le_rfl]
  refine integrate_congr _ _ _ _ _ _ hu fun i hi => ?_
  have h1 := (rows_unique q f _ (m + 1) hq (by omega)).mp ((rows_iff q f _ (m + 1) hq (by omega)).mp heq) i hi
  have h2 := (rows_unique q f _ (m + 1) hq (by omega)).mp
    ((rows_iff q f _ (m + 1) hq (by omega)).mp (spline_eqs q f m s hs hq)) i hi
  rw [h2]; exact h1

/-- Constants and linear functions are integrated exactly: the sum for `c + d r` is `c R³/3 + d R⁴/4`, with `R` the last node. -/
theorem C119_linear (r : ℕ → ℝ) (m : ℕ) (h : valid r (m + 2)) (c d : ℝ) :
    ∑ j ∈ Finset.range (m + 2), (initWeights r (m + 2)).2 j * (initWeights r (m + 2)).1 j ^ 2 *
        (c + d * (initWeights r (m + 2)).1 j) = c * r (m + 1) ^ 3 / 3 + d * r (m + 1) ^ 4 / 4 := by
  obtain ⟨hp, hm, he, _⟩ := C119_nodes r (m + 2) h
  have hlast := he (m + 1) (Or.inl (by omega))
  let s : Pieces := ⟨fun i => c + d * (initWeights r (m + 2)).1 i, fun _ => d, fun _ => 0, fun _ => 0⟩
  have hs : NaturalSpline (initWeights r (m + 2)).1 (fun j => c + d * (initWeights r (m + 2)).1 j) m s := by
    refine ⟨fun _ _ => rfl, fun i _ => ?_, fun i _ => ?_, fun i _ => ?_, rfl, ?_⟩ <;> simp only [s, Pieces.at] <;> ring
  rw [C119_exact_partial r _ m h s hs, ← hlast]
  have go : ∀ k, (∫ x in (0 : ℝ)..((initWeights r (m + 2)).1 0), x ^ 2 * (s.c0 0 + s.c1 0 * (x - (initWeights r (m + 2)).1 0))) +
      ∑ i ∈ Finset.range k, ∫ x in ((initWeights r (m + 2)).1 i)..((initWeights r (m + 2)).1 (i + 1)),
        x ^ 2 * s.at (initWeights r (m + 2)).1 i x =
      c * (initWeights r (m + 2)).1 k ^ 3 / 3 + d * (initWeights r (m + 2)).1 k ^ 4 / 4 := by
    intro k
    induction k with
    | zero =>
      have := integral_piece 0 ((initWeights r (m + 2)).1 0) ((initWeights r (m + 2)).1 0) (s.c0 0) (s.c1 0) 0 0
      simp only [zero_mul, add_zero] at this
      rw [this]
      simp only [s, Finset.range_zero, Finset.sum_empty]; ring
    | succ k ih =>
      have := integral_piece ((initWeights r (m + 2)).1 k) ((initWeights r (m + 2)).1 (k + 1)) ((initWeights r (m + 2)).1 k)
        (s.c0 k) (s.c1 k) (s.c2 k) (s.c3 k)
      rw [Finset.sum_range_succ, ← add_assoc, ih]
      simp only [Pieces.at]
      rw [this]
      simp only [s]; ring
  exact go (m + 1)

/-- The transform with an even number of samples ignores the last sample. -/
theorem C119_last_ignored (bessel : ℝ → ℝ) (r dr f g : ℕ → ℝ) (m : ℕ) (G : ℝ) (h : ∀ i ≤ 2 * m, f i = g i) :
    transform bessel r dr f (2 * m + 2) G = transform bessel r dr g (2 * m + 2) G := by
  unfold transform
  have e : (2 * m + 2 - 1) / 2 = m := by omega
  simp only [e]
  congr 1
  refine List.foldl_ext _ _ _ fun sum i hi => ?_
  rw [h i (by have := List.mem_range.mp hi; omega)]

/-- The nodes 1, 2, 3. -/
noncomputable def three : ℕ → ℝ := fun i => (i : ℝ) + 1

theorem three_weight : weight three 3 1 * 2 * 2 = 613 / 120 := by
  have hm : ∀ i < 2, three i < three (i + 1) := by
    intro i _; simp only [three]; push_cast; linarith
  let z : ℕ → ℝ := fun i => if i = 0 then 3 / 2 else if i = 1 then 0 else -3 / 2
  have hz : Eqs three (unit 1) z 2 := by
    refine ⟨by norm_num [z, rhs, hInv, three, unit], fun i hi => ?_, by norm_num [z, rhs, hInv, three, unit]⟩
    have : i = 0 := by omega
    subst this
    norm_num [z, rhs, hInv, three, unit]
  have h := (rows_unique three (unit 1) z 2 hm (by omega)).mp ((rows_iff three (unit 1) z 2 hm (by omega)).mp hz)
  unfold weight
  rw [show (3 - 1 : ℕ) = 2 from rfl, integrate_congr three _ _ (unit 1) z 2 (fun _ _ => rfl) (fun i hi => (h i hi).symm)]
  norm_num [integrate, z, three, unit]

theorem three_fix : fixFirst three = three := by
  funext i
  unfold fixFirst
  rw [if_neg]
  rintro ⟨_, h⟩
  norm_num [three] at h

/-- For the constant function one on the nodes 1, 2, 3 the transform at zero wavevector, where the Bessel function is one, is
not the integral `4π R³/3` over the ball, although the weights alone give this integral. -/
theorem C119_transform_fails : ∃ r : ℕ → ℝ, valid r 3 ∧ ∀ bessel : ℝ → ℝ, bessel 0 = 1 →
    transform bessel (initWeights r 3).1 (initWeights r 3).2 (fun _ => 1) 3 0 ≠ 4 * Real.pi * r 2 ^ 3 / 3 ∧
    4 * Real.pi * ∑ j ∈ Finset.range 3, (initWeights r 3).2 j * (initWeights r 3).1 j ^ 2 = 4 * Real.pi * r 2 ^ 3 / 3 := by
  have hv : valid three 3 := by
    refine ⟨by norm_num, by norm_num [three], fun i _ => ?_⟩
    simp only [three]; push_cast; linarith
  have hl := C119_linear three 1 hv 1 0
  simp only [zero_mul, add_zero, mul_one, one_mul, zero_div] at hl
  refine ⟨three, hv, fun bessel hb => ⟨?_, ?_⟩⟩
  · have hw := three_weight
    simp only [Finset.sum_range_succ, Finset.range_zero, Finset.sum_empty, zero_add, Nat.reduceAdd] at hl
    unfold transform
    simp only [initWeights, three_fix] at hl ⊢
    have er : (List.range (2 * ((3 - 1) / 2) + 1)) = [0, 1, 2] := by decide
    rw [er]
    simp only [List.foldl_cons, List.foldl_nil, zero_mul, hb, simpson]
    have t0 : three 0 = 1 := by norm_num [three]
    have t1 : three 1 = 2 := by norm_num [three]
    have t2 : three 2 = 3 := by norm_num [three]
    rw [t0, t1, t2] at hl ⊢
    norm_num
    intro hc
    have hpi := Real.pi_pos
    have : weight three 3 0 + weight three 3 1 * 2 * 2 * 4 + weight three 3 2 * 3 * 3 = 27 := by
      have hc' : 4 * Real.pi / 3 * (weight three 3 0 + weight three 3 1 * 2 * 2 * 4 + weight three 3 2 * 3 * 3 - 27) = 0 := by
        linear_combination hc
      rcases mul_eq_zero.mp hc' with h | h
      · exact absurd h (by positivity)
      · linarith
    nlinarith
  · rw [hl]; ring

/-- The hypotheses of `C119_exact_partial` are met by a spline that is not linear: on nodes 1, 2, 3 the one through 0, 1, 0. -/
example : valid three (1 + 2) ∧ NaturalSpline (initWeights three (1 + 2)).1 (fun i => if i = 1 then 1 else 0) 1
    ⟨fun i => if i = 1 then 1 else 0, fun i => if i = 1 then 0 else 3 / 2, fun i => if i = 1 then -3 / 2 else 0,
      fun i => if i = 1 then 1 / 2 else -1 / 2⟩ := by
  refine ⟨⟨by norm_num, by norm_num [three], fun i _ => ?_⟩, ?_⟩
  · simp only [three]; push_cast; linarith
  · simp only [initWeights, three_fix]
    refine ⟨fun i _ => rfl, fun i hi => ?_, fun i hi => ?_, fun i hi => ?_, by simp, by norm_num [three]⟩
    · interval_cases i <;> norm_num [Pieces.at, three]
    · interval_cases i; norm_num [three]
    · interval_cases i; norm_num [three]

/-- A grid that starts at zero is valid. -/
example : valid (fun i => (i : ℝ)) 5 := ⟨by norm_num, by norm_num, fun i _ => by push_cast; linarith⟩

end Jdftx.RadW
