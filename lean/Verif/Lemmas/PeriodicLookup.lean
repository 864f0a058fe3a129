import Verif.Model.PeriodicLookup
import Verif.Spec.PeriodicLookup
import Mathlib.Analysis.SpecialFunctions.Trigonometric.Bounds
import Mathlib.Algebra.Order.Round
import Mathlib.Tactic.Linarith
import Mathlib.Tactic.FinCases

/-! # Lemmas for C30 -/
namespace Jdftx.PL
open Jdftx.M3

theorem chord (a b : ℝ) : (Real.cos (2 * Real.pi * a) - Real.cos (2 * Real.pi * b)) ^ 2
    + (Real.sin (2 * Real.pi * a) - Real.sin (2 * Real.pi * b)) ^ 2 = 4 * Real.sin (Real.pi * (a - b)) ^ 2 := by
  have h1 := Real.cos_sub (2 * Real.pi * a) (2 * Real.pi * b)
  have h2 : 2 * Real.pi * a - 2 * Real.pi * b = 2 * (Real.pi * (a - b)) := by ring
  rw [h2, Real.cos_two_mul] at h1
  have h3 := Real.sin_sq_add_cos_sq (Real.pi * (a - b))
  have h4 := Real.sin_sq_add_cos_sq (2 * Real.pi * a)
  have h5 := Real.sin_sq_add_cos_sq (2 * Real.pi * b)
  nlinarith

theorem circ_eq (a b : V3 ℝ) : circDistanceSquared a b
    = 4 * Real.sin (Real.pi * (a 0 - b 0)) ^ 2 + 4 * Real.sin (Real.pi * (a 1 - b 1)) ^ 2 + 4 * Real.sin (Real.pi * (a 2 - b 2)) ^ 2 := by
  unfold circDistanceSquared; simp only [chord]

theorem sin_sq_shift (x : ℝ) (n : Int) : Real.sin (Real.pi * (x - n)) ^ 2 = Real.sin (Real.pi * x) ^ 2 := by
  have : Real.pi * (x - n) = Real.pi * x - n * Real.pi := by ring
  rw [this, Real.sin_sub_int_mul_pi, mul_pow]
  rcases Int.even_or_odd n with h | h
  · rw [h.neg_one_zpow]; ring
  · rw [h.neg_one_zpow]; ring

theorem circ_frac (v p : V3 ℝ) : circDistanceSquared (fun k => frac (v k)) p = circDistanceSquared v p := by
  rw [circ_eq, circ_eq]
  have : ∀ k : Fin 3, Real.sin (Real.pi * (frac (v k) - p k)) ^ 2 = Real.sin (Real.pi * (v k - p k)) ^ 2 := by
    intro k
    have : frac (v k) - p k = (v k - p k) - (Int.floor (v k) : ℝ) := by unfold frac; ring
    rw [this, sin_sq_shift]
  simp only [this]

theorem exp_norm (a b : ℝ) : ‖Complex.exp (2 * Real.pi * a * Complex.I) - Complex.exp (2 * Real.pi * b * Complex.I)‖ ^ 2
    = (Real.cos (2 * Real.pi * a) - Real.cos (2 * Real.pi * b)) ^ 2 + (Real.sin (2 * Real.pi * a) - Real.sin (2 * Real.pi * b)) ^ 2 := by
  have h : ∀ x : ℝ, Complex.exp (2 * Real.pi * x * Complex.I) = Complex.exp (((2 * Real.pi * x : ℝ) : ℂ) * Complex.I) := by
    intro x; push_cast; rfl
  rw [h, h, Complex.sq_norm, Complex.normSq_apply]
  simp only [Complex.sub_re, Complex.sub_im, Complex.exp_ofReal_mul_I_re, Complex.exp_ofReal_mul_I_im]
  ring

theorem circ_spec (a b : V3 ℝ) : circDistanceSquared a b = circleDistSq a b := by
  unfold circleDistSq circDistanceSquared
  rw [Fin.sum_univ_three]
  simp only [exp_norm]

/-- Chord distance bounds the distance modulo integers. -/
theorem near_of_chord (d thr : ℝ) (hthr : 0 < thr) (h : 4 * Real.sin (Real.pi * d) ^ 2 < thr ^ 2) :
    ∃ n : Int, |d - n| < thr / 4 := by
  refine ⟨round d, ?_⟩
  have h1 := abs_sub_round d
  rw [← sin_sq_shift d (round d)] at h
  set e := d - (round d : ℝ) with he
  have hpi := Real.pi_pos
  have h2 : 2 / Real.pi * (Real.pi * |e|) ≤ Real.sin (Real.pi * |e|) :=
    Real.mul_le_sin (by positivity) (by nlinarith)
  have h3 : 2 / Real.pi * (Real.pi * |e|) = 2 * |e| := by field_simp
  rw [h3] at h2
  have h4 : Real.sin (Real.pi * |e|) ^ 2 = Real.sin (Real.pi * e) ^ 2 := by
    rcases abs_cases e with ⟨ha, _⟩ | ⟨ha, _⟩
    · rw [ha]
    · rw [ha, mul_neg, Real.sin_neg]; ring
  have h5 : (2 * |e|) ^ 2 ≤ Real.sin (Real.pi * |e|) ^ 2 := pow_le_pow_left₀ (by positivity) h2 2
  rw [h4] at h5
  by_contra hc
  push Not at hc
  nlinarith [abs_nonneg e]

theorem frac_mem (v : ℝ) : 0 ≤ frac v ∧ frac v < 1 := by
  unfold frac
  exact ⟨by linarith [Int.floor_le v], by linarith [Int.lt_floor_add_one v]⟩

theorem wrap_mem {S i : Int} (hS : 0 < S) (h0 : 0 ≤ i) (h1 : i ≤ S) : 0 ≤ wrap S i ∧ wrap S i < S := by
  unfold wrap; simp only; split <;> split <;> omega

theorem cell_mem (S : Int) (hS : 0 < S) (v : ℝ) :
    0 ≤ Int.floor (frac v * (S : ℝ) + 0.5) ∧ Int.floor (frac v * (S : ℝ) + 0.5) ≤ S := by
  obtain ⟨h0, h1⟩ := frac_mem v
  have hS' : (0 : ℝ) < S := by exact_mod_cast hS
  constructor
  · exact Int.floor_nonneg.2 (by positivity)
  · have : Int.floor (frac v * (S : ℝ) + 0.5) < S + 1 := Int.floor_lt.2 (by push_cast; nlinarith)
    omega

theorem query_mem (S : Int) (hS : 0 < S) (thr : ℝ) (hthr : 0 < thr) (hts : thr * S < 0.5) (v : ℝ) (i : Int)
    (hi : Int.floor ((frac v - thr) * (S : ℝ) + 0.5) ≤ i ∧ i ≤ Int.floor ((frac v + thr) * (S : ℝ) + 0.5)) :
    0 ≤ i ∧ i ≤ S := by
  obtain ⟨h0, h1⟩ := frac_mem v
  have hS' : (0 : ℝ) < S := by exact_mod_cast hS
  constructor
  · refine le_trans (Int.floor_nonneg.2 ?_) hi.1
    nlinarith
  · have : Int.floor ((frac v + thr) * (S : ℝ) + 0.5) < S + 1 := Int.floor_lt.2 (by push_cast; nlinarith)
    omega

/-- A point within the tolerance (modulo integers) is in a cell which the query examines. -/
theorem cell_found (S : Int) (hS : 0 < S) (thr : ℝ) (hthr : 0 < thr) (hts : thr * S < 0.5) (v p : ℝ) (n : Int)
    (h : |frac v - frac p - n| < thr) :
    ∃ i, (Int.floor ((frac v - thr) * (S : ℝ) + 0.5) ≤ i ∧ i ≤ Int.floor ((frac v + thr) * (S : ℝ) + 0.5)) ∧
      wrap S i = wrap S (Int.floor (frac p * (S : ℝ) + 0.5)) := by
  obtain ⟨v0, v1⟩ := frac_mem v
  obtain ⟨p0, p1⟩ := frac_mem p
  have hS' : (1 : ℝ) ≤ S := by exact_mod_cast hS
  rw [abs_lt] at h
  have hthr2 : thr < 0.5 := by nlinarith
  have hn1 : (n : ℝ) < 2 := by linarith
  have hn2 : (-2 : ℝ) < n := by linarith
  have hn1' : n < 2 := by exact_mod_cast hn1
  have hn2' : -2 < n := by exact_mod_cast hn2
  have hcase : n = 0 ∨ n = 1 ∨ n = -1 := by omega
  rcases hcase with rfl | rfl | rfl
  · refine ⟨Int.floor (frac p * (S : ℝ) + 0.5), ⟨?_, ?_⟩, rfl⟩
    · apply Int.floor_le_floor
      push_cast at h
      nlinarith
    · apply Int.floor_le_floor
      push_cast at h
      nlinarith
  · -- query near 1, point near 0
    push_cast at h
    have hc : Int.floor (frac p * (S : ℝ) + 0.5) = 0 := by
      rw [Int.floor_eq_iff]
      push_cast
      constructor <;> nlinarith
    refine ⟨S, ⟨?_, ?_⟩, ?_⟩
    · have : Int.floor ((frac v - thr) * (S : ℝ) + 0.5) < S + 1 := Int.floor_lt.2 (by push_cast; nlinarith)
      omega
    · exact Int.le_floor.2 (by nlinarith)
    · rw [hc]; unfold wrap; simp only; split <;> split <;> omega
  · -- query near 0, point near 1
    push_cast at h
    have hc : Int.floor (frac p * (S : ℝ) + 0.5) = S := by
      rw [Int.floor_eq_iff]
      constructor <;> nlinarith
    refine ⟨0, ⟨?_, ?_⟩, ?_⟩
    · have : Int.floor ((frac v - thr) * (S : ℝ) + 0.5) < 1 := Int.floor_lt.2 (by push_cast; nlinarith)
      omega
    · exact Int.floor_nonneg.2 (by nlinarith)
    · rw [hc]; unfold wrap; simp only; split <;> split <;> omega

/-! ### Mesh indices -/

theorem meshIndex_mem {S iv : V3 Int} (hS : ∀ k, 0 < S k) (h : ∀ k, 0 ≤ iv k ∧ iv k ≤ S k) :
    0 ≤ meshIndex S iv ∧ meshIndex S iv < S 0 * S 1 * S 2 := by
  have w0 := wrap_mem (hS 0) (h 0).1 (h 0).2
  have w1 := wrap_mem (hS 1) (h 1).1 (h 1).2
  have w2 := wrap_mem (hS 2) (h 2).1 (h 2).2
  have a0 := hS 0
  have a1 := hS 1
  have a2 := hS 2
  unfold meshIndex
  generalize wrap (S 0) (iv 0) = x at *
  generalize wrap (S 1) (iv 1) = y at *
  generalize wrap (S 2) (iv 2) = z at *
  constructor
  · have : 0 ≤ y + S 1 * z := by nlinarith
    nlinarith
  · have h1 : y + S 1 * z ≤ S 1 * S 2 - 1 := by nlinarith
    have h2 : S 0 * (y + S 1 * z) ≤ S 0 * (S 1 * S 2 - 1) := mul_le_mul_of_nonneg_left h1 a0.le
    nlinarith

theorem meshIndex_congr {S a b : V3 Int} (h : ∀ k, wrap (S k) (a k) = wrap (S k) (b k)) : meshIndex S a = meshIndex S b := by
  unfold meshIndex; rw [h 0, h 1, h 2]

theorem at?_ok {α : Type} {l : List α} {i : Int} (h0 : 0 ≤ i) (h1 : i < l.length) :
    ∃ x, at? l i = .ok x ∧ l[i.toNat]? = some x := by
  have hlt : i.toNat < l.length := by omega
  refine ⟨l[i.toNat], ?_, List.getElem?_eq_getElem hlt⟩
  unfold at?
  rw [if_neg (by omega), List.getElem?_eq_getElem hlt]

/-! ### The table -/

/-- What the table holds for the points `pts`. -/
structure Table (S : V3 Int) (pts : List (V3 ℝ)) (indices : List (List Nat)) : Prop where
  len : (indices.length : Int) = S 0 * S 1 * S 2
  cells : ∀ (c : Nat) (l : List Nat), indices[c]? = some l →
    ∀ i, i ∈ l ↔ ∃ p, pts[i]? = some p ∧ meshIndex S (cellOf S p) = c

theorem table_empty (S : V3 Int) (hS : ∀ k, 0 < S k) : Table S [] (emptyTable S) := by
  constructor
  · unfold emptyTable
    rw [List.length_replicate]
    have h := mul_pos (mul_pos (hS 0) (hS 1)) (hS 2)
    omega
  · intro c l h i
    unfold emptyTable at h
    rw [List.getElem?_replicate] at h
    split at h
    · simp only [Option.some.injEq] at h
      subst h
      simp
    · simp at h

theorem cellOf_mem (S : V3 Int) (hS : ∀ k, 0 < S k) (p : V3 ℝ) (k : Fin 3) : 0 ≤ cellOf S p k ∧ cellOf S p k ≤ S k :=
  cell_mem (S k) (hS k) (p k)

theorem addPoint_table {S : V3 Int} (hS : ∀ k, 0 < S k) {pts : List (V3 ℝ)} {indices : List (List Nat)}
    (h : Table S pts indices) (p : V3 ℝ) :
    ∃ indices', addPoint S indices pts.length p = .ok indices' ∧ Table S (pts ++ [p]) indices' := by
  obtain ⟨m0, m1⟩ := meshIndex_mem hS (cellOf_mem S hS p)
  obtain ⟨l, e1, e2⟩ := at?_ok (l := indices) m0 (by rw [h.len]; exact m1)
  refine ⟨indices.set (meshIndex S (cellOf S p)).toNat (l ++ [pts.length]), by unfold addPoint; simp only [e1], ?_, ?_⟩
  · rw [List.length_set]; exact h.len
  · intro c l' hc i
    have hmem : ∀ q, (pts ++ [p])[i]? = some q ↔ pts[i]? = some q ∨ (i = pts.length ∧ q = p) := by
      intro q
      rw [List.getElem?_append]
      split
      · next hlt => constructor
                    · exact .inl
                    · rintro (hh | ⟨rfl, _⟩)
                      · exact hh
                      · omega
      · next hge =>
        rw [List.getElem?_singleton]
        split
        · next hz =>
          constructor
          · intro e; exact .inr ⟨by omega, by simpa using e.symm⟩
          · rintro (hh | ⟨_, rfl⟩)
            · rw [List.getElem?_eq_none (by omega)] at hh; simp at hh
            · rfl
        · next hz =>
          constructor
          · intro e; simp at e
          · rintro (hh | ⟨hi, _⟩)
            · rw [List.getElem?_eq_none (by omega)] at hh; simp at hh
            · omega
    simp only [hmem]
    rw [List.getElem?_set] at hc
    split at hc
    · next heq =>
      have hlen : (meshIndex S (cellOf S p)).toNat < indices.length := by have := h.len; omega
      rw [if_pos hlen] at hc
      simp only [Option.some.injEq] at hc
      subst hc
      rw [List.mem_append, h.cells c l (by rw [← heq]; exact e2) i]
      simp only [List.mem_singleton]
      constructor
      · rintro (⟨q, hq, hm⟩ | rfl)
        · exact ⟨q, .inl hq, hm⟩
        · exact ⟨p, .inr ⟨rfl, rfl⟩, by omega⟩
      · rintro ⟨q, hq | ⟨hi, rfl⟩, hm⟩
        · exact .inl ⟨q, hq, hm⟩
        · exact .inr hi
    · next hne =>
      rw [h.cells c l' hc i]
      constructor
      · rintro ⟨q, hq, hm⟩; exact ⟨q, .inl hq, hm⟩
      · rintro ⟨q, hq | ⟨hi, rfl⟩, hm⟩
        · exact ⟨q, hq, hm⟩
        · omega

theorem addPoints_table {S : V3 Int} (hS : ∀ k, 0 < S k) (new pts : List (V3 ℝ)) (indices : List (List Nat))
    (h : Table S pts indices) :
    ∃ indices', addPoints S pts.length new indices = .ok indices' ∧ Table S (pts ++ new) indices' := by
  induction new generalizing pts indices with
  | nil => exact ⟨indices, rfl, by simpa using h⟩
  | cons p new ih =>
    obtain ⟨i1, e1, h1⟩ := addPoint_table hS h p
    obtain ⟨i2, e2, h2⟩ := ih (pts ++ [p]) i1 h1
    refine ⟨i2, ?_, by simpa using h2⟩
    unfold addPoints
    rw [e1]
    simpa using e2

/-! ### Queries -/

theorem findIn_spec (thrSq : ℝ) (pts : List (V3 ℝ)) (tagOk : Nat → Prop) (v : V3 ℝ) (l : List Nat)
    (hl : ∀ i ∈ l, i < pts.length) :
    (findIn thrSq pts tagOk v l = .ok none ∧
      ∀ i ∈ l, ∀ p, pts[i]? = some p → ¬(circDistanceSquared v p < thrSq ∧ tagOk i)) ∨
    (∃ i ∈ l, findIn thrSq pts tagOk v l = .ok (some i) ∧
      ∃ p, pts[i]? = some p ∧ circDistanceSquared v p < thrSq ∧ tagOk i) := by
  induction l with
  | nil => exact .inl ⟨rfl, by simp⟩
  | cons i l ih =>
    have hlt := hl i (List.mem_cons_self ..)
    have hi := List.getElem?_eq_getElem hlt
    unfold findIn
    rw [hi]
    by_cases hc : circDistanceSquared v pts[i] < thrSq ∧ tagOk i
    · simp only
      rw [if_pos (by rw [circ_frac]; exact hc)]
      exact .inr ⟨i, List.mem_cons_self .., rfl, _, hi, hc.1, hc.2⟩
    · simp only
      rw [if_neg (by rw [circ_frac]; exact hc)]
      rcases ih fun j hj => hl j (List.mem_cons_of_mem _ hj) with ⟨h1, h2⟩ | ⟨j, hj, h1, h2⟩
      · refine .inl ⟨h1, ?_⟩
        intro j hj p hp
        rcases List.mem_cons.1 hj with rfl | hj
        · rw [hi] at hp
          simp only [Option.some.injEq] at hp
          rw [← hp]; exact hc
        · exact h2 j hj p hp
      · exact .inr ⟨j, List.mem_cons_of_mem _ hj, h1, h2⟩

theorem findCells_spec (thrSq : ℝ) (S : V3 Int) (hS : ∀ k, 0 < S k) (pts : List (V3 ℝ)) (indices : List (List Nat))
    (ht : Table S pts indices) (tagOk : Nat → Prop) (v : V3 ℝ) (ivs : List (V3 Int))
    (hv : ∀ iv ∈ ivs, ∀ k, 0 ≤ iv k ∧ iv k ≤ S k) :
    (findCells thrSq S pts indices tagOk v ivs = .ok none ∧
      ∀ iv ∈ ivs, ∀ i p, pts[i]? = some p → meshIndex S (cellOf S p) = meshIndex S iv →
        ¬(circDistanceSquared v p < thrSq ∧ tagOk i)) ∨
    (∃ i p, findCells thrSq S pts indices tagOk v ivs = .ok (some i) ∧ pts[i]? = some p ∧
      circDistanceSquared v p < thrSq ∧ tagOk i) := by
  induction ivs with
  | nil => exact .inl ⟨rfl, by simp⟩
  | cons iv ivs ih =>
    obtain ⟨m0, m1⟩ := meshIndex_mem hS (hv iv (List.mem_cons_self ..))
    obtain ⟨l, e1, e2⟩ := at?_ok (l := indices) m0 (by rw [ht.len]; exact m1)
    have hcell := ht.cells _ l e2
    unfold findCells
    rw [e1]
    simp only
    rcases findIn_spec thrSq pts tagOk v l (fun i hi => by
        obtain ⟨p, hp, _⟩ := (hcell i).1 hi
        exact (List.getElem?_eq_some_iff.1 hp).1) with ⟨h1, h2⟩ | ⟨i, hi, h1, p, hp, h2⟩
    · rw [h1]
      simp only
      rcases ih fun iv' h' => hv iv' (List.mem_cons_of_mem _ h') with ⟨g1, g2⟩ | hsome
      · refine .inl ⟨g1, ?_⟩
        intro iv' hiv' i p hp hm
        rcases List.mem_cons.1 hiv' with rfl | hiv'
        · exact h2 i ((hcell i).2 ⟨p, hp, by omega⟩) p hp
        · exact g2 iv' hiv' i p hp hm
      · exact .inr hsome
    · rw [h1]
      exact .inr ⟨i, p, rfl, hp, h2⟩

theorem mem_intRange (a b i : Int) : i ∈ intRange a b ↔ a ≤ i ∧ i ≤ b := by
  unfold intRange
  simp only [List.mem_map, List.mem_range]
  constructor
  · rintro ⟨n, hn, rfl⟩; omega
  · rintro ⟨h1, h2⟩; exact ⟨(i - a).toNat, by omega, by omega⟩

theorem mem_queryCells (thr : ℝ) (S : V3 Int) (v : V3 ℝ) (iv : V3 Int) :
    iv ∈ queryCells thr S v ↔ ∀ k, Int.floor ((frac (v k) - thr) * (S k : ℝ) + 0.5) ≤ iv k ∧
      iv k ≤ Int.floor ((frac (v k) + thr) * (S k : ℝ) + 0.5) := by
  unfold queryCells
  simp only [List.mem_flatMap, List.mem_map, mem_intRange]
  constructor
  · rintro ⟨a, ha, b, hb, c, hc, rfl⟩ k
    fin_cases k <;> simp only [vec] <;> assumption
  · intro h
    refine ⟨iv 0, h 0, iv 1, h 1, iv 2, h 2, ?_⟩
    funext k; fin_cases k <;> rfl

theorem find_spec (thr : ℝ) (hthr : 0 < thr) (S : V3 Int) (hS : ∀ k, 0 < S k) (hts : ∀ k, thr * S k < 0.5)
    (pts : List (V3 ℝ)) (indices : List (List Nat)) (ht : Table S pts indices) (tagOk : Nat → Prop) (v : V3 ℝ) :
    (find thr S pts indices tagOk v = .ok none ∧ ∀ i p, pts[i]? = some p → ¬(circDistanceSquared v p < thr * thr ∧ tagOk i)) ∨
    (∃ i p, find thr S pts indices tagOk v = .ok (some i) ∧ pts[i]? = some p ∧ circDistanceSquared v p < thr * thr ∧ tagOk i) := by
  unfold find
  rcases findCells_spec (thr * thr) S hS pts indices ht tagOk v (queryCells thr S v) (fun iv h k =>
      query_mem (S k) (hS k) thr hthr (hts k) (v k) (iv k) ((mem_queryCells thr S v iv).1 h k)) with ⟨h1, h2⟩ | h
  · refine .inl ⟨h1, ?_⟩
    rintro i p hp ⟨hc, htag⟩
    have near : ∀ k, ∃ n : Int, |frac (v k) - frac (p k) - n| < thr := by
      intro k
      rw [circ_eq] at hc
      have hk : 4 * Real.sin (Real.pi * (v k - p k)) ^ 2 < thr ^ 2 := by
        fin_cases k <;> simp only [Fin.zero_eta, Fin.mk_one, Fin.reduceFinMk] <;>
          nlinarith [sq_nonneg (Real.sin (Real.pi * (v 0 - p 0))), sq_nonneg (Real.sin (Real.pi * (v 1 - p 1))),
            sq_nonneg (Real.sin (Real.pi * (v 2 - p 2)))]
      obtain ⟨n, hn⟩ := near_of_chord _ thr hthr hk
      refine ⟨n - Int.floor (v k) + Int.floor (p k), ?_⟩
      have : frac (v k) - frac (p k) - ((n - Int.floor (v k) + Int.floor (p k) : Int) : ℝ) = v k - p k - n := by
        unfold frac; push_cast; ring
      rw [this]
      linarith
    choose n hn using near
    have hex : ∀ k, ∃ i, (Int.floor ((frac (v k) - thr) * (S k : ℝ) + 0.5) ≤ i ∧ i ≤ Int.floor ((frac (v k) + thr) * (S k : ℝ) + 0.5)) ∧
        wrap (S k) i = wrap (S k) (cellOf S p k) :=
      fun k => cell_found (S k) (hS k) thr hthr (hts k) (v k) (p k) (n k) (hn k)
    choose iv hiv hw using hex
    exact h2 iv ((mem_queryCells thr S v iv).2 hiv) i p hp (meshIndex_congr fun k => (hw k).symm) ⟨hc, htag⟩
  · exact .inr h

end Jdftx.PL
