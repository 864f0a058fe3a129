import Verif.Lemmas.PeriodicLookup

/-!
# C30: periodic point lookup
-/
namespace Jdftx.PL
open Jdftx.M3

/-- Looking up a position never leaves the table, returns an index whose point coincides with it (and has the right tag), and
reports nothing only if there is no such point. For all point lists, all mesh counts allowed by the constructor's assertion. -/
theorem C30_lookup (thr : ℝ) (hthr : 0 < thr) (S : V3 Int) (hS : ∀ k, 0 < S k) (hts : ∀ k, thr * S k < 0.5)
    (points : List (V3 ℝ)) (tagOk : Nat → Prop) (v : V3 ℝ) :
    ∃ r, lookup thr S points tagOk v = .ok r ∧
      (∀ i, r = some i → ∃ p, points[i]? = some p ∧ Coincide thr v p ∧ tagOk i) ∧
      (r = none ↔ ∀ i p, points[i]? = some p → ¬(Coincide thr v p ∧ tagOk i)) := by
  obtain ⟨indices, e, ht⟩ := addPoints_table hS points [] _ (table_empty S hS)
  have hco : ∀ p, Coincide thr v p ↔ circDistanceSquared v p < thr * thr := by
    intro p; unfold Coincide; rw [circ_spec, sq]
  have el : lookup thr S points tagOk v = find thr S points indices tagOk v := by
    unfold lookup
    rw [show addPoints S 0 points (emptyTable S) = .ok indices from e]
  rw [el]
  simp only [hco]
  rcases find_spec thr hthr S hS hts points indices (by simpa using ht) tagOk v with ⟨h1, h2⟩ | ⟨i, p, h1, h2, h3, h4⟩
  · exact ⟨none, h1, by simp, by simpa using h2⟩
  · refine ⟨some i, h1, ?_, ?_⟩
    · rintro j hj
      simp only [Option.some.injEq] at hj
      subst hj
      exact ⟨p, h2, h3, h4⟩
    · simp only [reduceCtorEq, false_iff]
      intro h
      exact h i p h2 ⟨h3, h4⟩

/-- Adding points to the end one at a time gives the same table as building it from all points at once, so that lookups in a
growing list (as in the k-point mesh closure) behave as in `C30_lookup`. -/
theorem C30_incremental (S : V3 Int) (hS : ∀ k, 0 < S k) (old new : List (V3 ℝ)) :
    ∃ t1 t2, addPoints S 0 old (emptyTable S) = .ok t1 ∧ addPoints S old.length new t1 = .ok t2 ∧
      addPoints S 0 (old ++ new) (emptyTable S) = .ok t2 := by
  obtain ⟨t1, e1, h1⟩ := addPoints_table hS old [] _ (table_empty S hS)
  obtain ⟨t2, e2, h2⟩ := addPoints_table hS new old t1 (by simpa using h1)
  refine ⟨t1, t2, e1, e2, ?_⟩
  have app : ∀ (l : List (V3 ℝ)) n t, addPoints S n (l ++ new) t
      = match addPoints S n l t with | .error e => .error e | .ok t' => addPoints S (n + l.length) new t' := by
    intro l
    induction l with
    | nil => intro n t; rfl
    | cons a l ih =>
      intro n t
      simp only [List.cons_append, addPoints]
      cases addPoint S t n a with
      | error e => rfl
      | ok t' => simp only [ih]; rw [List.length_cons, Nat.add_assoc, Nat.add_comm 1]
  rw [app]
  simp only [List.length_nil] at e1
  rw [e1]
  simpa using e2

/-- What coinciding means for the coordinates: positions which coincide differ by less than a quarter of the tolerance from
integers in each coordinate, and positions whose coordinates differ from integers by less than `thr/(2π√3)` coincide. -/
theorem C30_coincide (thr : ℝ) (hthr : 0 < thr) (a b : V3 ℝ) :
    (Coincide thr a b → ∃ n : V3 Int, ∀ k, |a k - b k - n k| < thr / 4) ∧
    ((∃ n : V3 Int, ∀ k, |a k - b k - n k| < thr / (2 * Real.pi * Real.sqrt 3)) → Coincide thr a b) := by
  unfold Coincide
  rw [← circ_spec, circ_eq]
  constructor
  · intro h
    have : ∀ k, ∃ n : Int, |a k - b k - n| < thr / 4 := by
      intro k
      refine near_of_chord _ thr hthr ?_
      fin_cases k <;> simp only [Fin.zero_eta, Fin.mk_one, Fin.reduceFinMk] <;>
        nlinarith [sq_nonneg (Real.sin (Real.pi * (a 0 - b 0))), sq_nonneg (Real.sin (Real.pi * (a 1 - b 1))),
          sq_nonneg (Real.sin (Real.pi * (a 2 - b 2)))]
    choose n hn using this
    exact ⟨n, hn⟩
  · rintro ⟨n, hn⟩
    have hpi := Real.pi_pos
    have h3 : (0 : ℝ) < Real.sqrt 3 := Real.sqrt_pos.2 (by norm_num)
    have h33 : Real.sqrt 3 ^ 2 = 3 := Real.sq_sqrt (by norm_num)
    have : ∀ k, 4 * Real.sin (Real.pi * (a k - b k)) ^ 2 < thr ^ 2 / 3 := by
      intro k
      rw [← sin_sq_shift _ (n k)]
      have h1 : Real.sin (Real.pi * (a k - b k - n k)) ^ 2 ≤ (Real.pi * (a k - b k - n k)) ^ 2 := by
        rw [sq_le_sq]
        exact Real.abs_sin_le_abs
      have h2 := hn k
      rw [lt_div_iff₀ (by positivity)] at h2
      have h4 : (|a k - b k - n k| * (2 * Real.pi * Real.sqrt 3)) ^ 2 < thr ^ 2 := by
        exact pow_lt_pow_left₀ h2 (by positivity) (by norm_num)
      have h5 : (|a k - b k - n k| * (2 * Real.pi * Real.sqrt 3)) ^ 2 = 12 * (Real.pi * (a k - b k - n k)) ^ 2 := by
        rw [mul_pow, sq_abs, mul_pow, mul_pow, h33]; ring
      rw [h5] at h4
      linarith
    have t0 := this 0
    have t1 := this 1
    have t2 := this 2
    linarith

-- A 2x2x2 mesh with the default tolerance meets the hypotheses, and a point near 1 is found at 0.
example : (∀ k, (0 : Int) < (vec 2 2 2 : V3 Int) k) ∧ ∀ k, (1e-4 : ℝ) * ((vec 2 2 2 : V3 Int) k) < 0.5 := by
  constructor
  · decide
  · intro k; fin_cases k <;> simp [vec] <;> norm_num

example : ∃ r, lookup 1e-4 (vec 2 2 2) [vec 0 (1/2) 0, vec 0 0 0] (fun _ => True) (vec 1 3 (-2)) = .ok r ∧ r ≠ none := by
  obtain ⟨r, h1, _, h3⟩ := C30_lookup 1e-4 (by norm_num) (vec 2 2 2) (by decide)
    (by intro k; fin_cases k <;> simp [vec] <;> norm_num) [vec 0 (1/2) 0, vec 0 0 0] (fun _ => True) (vec 1 3 (-2))
  refine ⟨r, h1, fun h => h3.1 h 1 (vec 0 0 0) rfl ⟨?_, trivial⟩⟩
  refine (C30_coincide 1e-4 (by norm_num) _ _).2 ⟨vec 1 3 (-2), ?_⟩
  have hpos : (0 : ℝ) < 1e-4 / (2 * Real.pi * Real.sqrt 3) := by
    have := Real.pi_pos
    have h3 : (0 : ℝ) < Real.sqrt 3 := Real.sqrt_pos.2 (by norm_num)
    positivity
  intro k
  fin_cases k <;> simpa [vec] using hpos

end Jdftx.PL
