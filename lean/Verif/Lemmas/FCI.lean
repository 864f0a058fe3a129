import Verif.Spec.FCI
import Verif.Lemmas.TaskDivision

/-! # Lemmas for the matrix elements for configuration interaction -/
set_option linter.unusedSectionVars false
namespace Jdftx.FCI
open Jdftx.M3
open scoped ComplexConjugate
noncomputable section

theorem triRoot_spec (i12 i1 : ℕ) (h : i1 * (i1 + 1) ≤ 2 * i12) : triRoot i12 i1 * (triRoot i12 i1 + 1) ≤ 2 * i12 ∧ 2 * i12 < (triRoot i12 i1 + 1) * (triRoot i12 i1 + 2) := by
  fun_induction triRoot i12 i1 with
  | case1 i1 h1 ih => exact ih (by simpa using h1)
  | case2 i1 h1 => exact ⟨h, by omega⟩

theorem two_tri (n : ℕ) : 2 * (n * (n + 1) / 2) = n * (n + 1) := Nat.mul_div_cancel' (Nat.even_mul_succ_self n).two_dvd

/-- Number of values of the second index. -/
def lim (sym : Bool) (N i1 : ℕ) : ℕ := if sym then i1 + 1 else N
/-- Combined index. -/
def idx (sym : Bool) (N i1 i2 : ℕ) : ℕ := if sym then i1 * (i1 + 1) / 2 + i2 else i1 * N + i2

/-- Pairs of indices that occur. -/
def Valid (sym : Bool) (N i1 i2 : ℕ) : Prop := i1 < N ∧ i2 < lim sym N i1

theorem tri_succ (n : ℕ) : (n + 1) * (n + 1 + 1) / 2 = n * (n + 1) / 2 + n + 1 := by
  have h1 := two_tri n
  have h2 := two_tri (n + 1)
  have : (n + 1) * (n + 1 + 1) = n * (n + 1) + 2 * (n + 1) := by ring
  omega

theorem tri_mono {a b : ℕ} (h : a ≤ b) : a * (a + 1) / 2 ≤ b * (b + 1) / 2 := Nat.div_le_div_right (Nat.mul_le_mul h (by omega))

theorem idx_end (sym : Bool) (N i1 : ℕ) : idx sym N i1 (lim sym N i1) = idx sym N (i1 + 1) 0 := by
  cases sym
  · simp [idx, lim]; ring
  · simp only [idx, lim, if_true]; rw [tri_succ]; omega

theorem idx_succ (sym : Bool) (N i1 i2 : ℕ) : idx sym N i1 (i2 + 1) = idx sym N i1 i2 + 1 := by
  cases sym <;> simp [idx] <;> omega

theorem idx_count (sym : Bool) (N : ℕ) : idx sym N N 0 = count sym N := by cases sym <;> simp [idx, count]

theorem idx_mono (sym : Bool) (N : ℕ) {a b : ℕ} (h : a ≤ b) : idx sym N a 0 ≤ idx sym N b 0 := by
  cases sym
  · simp only [idx, Bool.false_eq_true, if_false, add_zero]; exact Nat.mul_le_mul_right _ h
  · simp only [idx, if_true, add_zero]; exact tri_mono h

theorem idx_add (sym : Bool) (N i1 i2 : ℕ) : idx sym N i1 i2 = idx sym N i1 0 + i2 := by cases sym <;> simp [idx]

theorem idx_bound {sym : Bool} {N i1 i2 : ℕ} (h : i2 < lim sym N i1) : idx sym N i1 i2 < idx sym N (i1 + 1) 0 := by
  rw [← idx_end, idx_add, idx_add sym N i1 (lim _ _ _)]
  omega

theorem idx_lt {sym : Bool} {N i1 i2 : ℕ} (h : Valid sym N i1 i2) : idx sym N i1 i2 < count sym N := by
  rw [← idx_count]
  exact (idx_bound h.2).trans_le (idx_mono sym N h.1)

theorem idx_inj {sym : Bool} {N i1 i2 j1 j2 : ℕ} (h : Valid sym N i1 i2) (h' : Valid sym N j1 j2) (he : idx sym N i1 i2 = idx sym N j1 j2) : i1 = j1 ∧ i2 = j2 := by
  have h1 : i1 = j1 := by
    rcases lt_trichotomy i1 j1 with hlt | heq | hlt
    · have a := idx_bound h.2
      have b := idx_mono sym N (show i1 + 1 ≤ j1 by omega)
      have d := idx_add sym N j1 j2
      omega
    · exact heq
    · have a := idx_bound h'.2
      have b := idx_mono sym N (show j1 + 1 ≤ i1 by omega)
      have d := idx_add sym N i1 i2
      omega
  subst h1
  rw [idx_add, idx_add sym N i1 j2] at he
  exact ⟨rfl, by omega⟩

theorem split_spec {sym : Bool} {N i : ℕ} (h : i < count sym N) : Valid sym N (splitDoublet i N sym).1 (splitDoublet i N sym).2 ∧ idx sym N (splitDoublet i N sym).1 (splitDoublet i N sym).2 = i := by
  cases sym
  · simp only [count, Bool.false_eq_true, if_false] at h
    have hN : 0 < N := by
      rcases Nat.eq_zero_or_pos N with h0 | h0
      · subst h0; simp at h
      · exact h0
    have h1 := Nat.div_add_mod i N
    have h2 := Nat.mod_lt i hN
    have h3 : i / N < N := Nat.div_lt_of_lt_mul h
    simp only [splitDoublet, Valid, lim, idx, Bool.false_eq_true, if_false]
    have h4 : i / N * N = N * (i / N) := Nat.mul_comm _ _
    refine ⟨⟨h3, ?_⟩, ?_⟩ <;> rw [h4] <;> omega
  · simp only [count, if_true] at h
    obtain ⟨h1, h2⟩ := triRoot_spec i 0 (by simp)
    simp only [splitDoublet, Valid, lim, idx, if_true]
    generalize triRoot i 0 = r at *
    have h3 := two_tri r
    have h4 := two_tri (r + 1)
    have h5 := tri_succ r
    have h6 : (r + 1) * (r + 2) = (r + 1) * (r + 1 + 1) := by ring
    refine ⟨⟨?_, by omega⟩, by omega⟩
    by_contra hr
    have := tri_mono (show N ≤ r by omega)
    omega

variable {G R : Type} [Fintype R] {nSp : ℕ} (c : Calc G R nSp)

/-- Caches agree with the indices. -/
structure Sync (q : Quad) (t : St G R nSp) : Prop where
  w1 : t.w1 = fun s r => conj (c.psi q.q1 t.i1 s r)
  w3 : t.w3 = fun s r => conj (c.psi q.q3 t.i3 s r)
  Kn12 : t.Kn12 = c.coul (c.dk q.q1 q.q2) (c.nPair (fun s r => conj (c.psi q.q1 t.i1 s r)) q.q2 t.i2 0)
  n34 : t.n34 = c.nPair (fun s r => conj (c.psi q.q3 t.i3 s r)) q.q4 t.i4 fun j => c.dk q.q3 q.q4 j - c.dk q.q1 q.q2 j

/-- The loop is at element `p`. -/
structure At (q : Quad) (p : ℕ) (t : St G R nSp) : Prop where
  v12 : Valid (q.q1 == q.q2) c.nBands t.i1 t.i2
  v34 : Valid (q.q3 == q.q4) c.nBands t.i3 t.i4
  pos : idx (q.q1 == q.q2) c.nBands t.i1 t.i2 * count (q.q3 == q.q4) c.nBands + idx (q.q3 == q.q4) c.nBands t.i3 t.i4 = p
  sync : Sync c q t

variable {c}

theorem At.unique {q : Quad} {p : ℕ} {t t' : St G R nSp} (h : At c q p t) (h' : At c q p t') : t = t' := by
  have a := idx_lt h.v34
  have a' := idx_lt h'.v34
  have e : idx (q.q1 == q.q2) c.nBands t.i1 t.i2 = idx (q.q1 == q.q2) c.nBands t'.i1 t'.i2 ∧ idx (q.q3 == q.q4) c.nBands t.i3 t.i4 = idx (q.q3 == q.q4) c.nBands t'.i3 t'.i4 := by
    have hp := h.pos.trans h'.pos.symm
    generalize idx (q.q1 == q.q2) c.nBands t.i1 t.i2 = x at *
    generalize idx (q.q1 == q.q2) c.nBands t'.i1 t'.i2 = x' at *
    generalize idx (q.q3 == q.q4) c.nBands t.i3 t.i4 = y at *
    generalize idx (q.q3 == q.q4) c.nBands t'.i3 t'.i4 = y' at *
    generalize count (q.q3 == q.q4) c.nBands = N at *
    have hN : 0 < N := by omega
    have hx : x = x' := by
      have h1 : (x * N + y) / N = x := by rw [Nat.mul_comm, Nat.mul_add_div hN, Nat.div_eq_of_lt a, add_zero]
      have h2 : (x' * N + y') / N = x' := by rw [Nat.mul_comm, Nat.mul_add_div hN, Nat.div_eq_of_lt a', add_zero]
      rw [← h1, hp, h2]
    subst hx
    exact ⟨rfl, by omega⟩
  obtain ⟨e1, e2⟩ := idx_inj h.v12 h'.v12 e.1
  obtain ⟨e3, e4⟩ := idx_inj h.v34 h'.v34 e.2
  have s := h.sync
  have s' := h'.sync
  obtain ⟨i1, i2, i3, i4, w1, K, w3, n⟩ := t
  obtain ⟨j1, j2, j3, j4, w1', K', w3', n'⟩ := t'
  simp only at e1 e2 e3 e4
  subst e1 e2 e3 e4
  have a1 := s.w1.trans s'.w1.symm
  have a2 := s.w3.trans s'.w3.symm
  have a3 := s.Kn12.trans s'.Kn12.symm
  have a4 := s.n34.trans s'.n34.symm
  simp only at a1 a2 a3 a4
  rw [a1, a2, a3, a4]

theorem first_at {q : Quad} {p : ℕ} (h : p < c.total q) : At c q p (c.first q p) := by
  unfold Calc.total at h
  have hN : 0 < count (q.q3 == q.q4) c.nBands := by
    rcases Nat.eq_zero_or_pos (count (q.q3 == q.q4) c.nBands) with h0 | h0
    · rw [h0] at h; simp at h
    · exact h0
  have h12 : p / count (q.q3 == q.q4) c.nBands < count (q.q1 == q.q2) c.nBands := Nat.div_lt_of_lt_mul (by rwa [Nat.mul_comm])
  have hm := Nat.mod_lt p hN
  have hd := Nat.div_add_mod p (count (q.q3 == q.q4) c.nBands)
  have hmul : p / count (q.q3 == q.q4) c.nBands * count (q.q3 == q.q4) c.nBands = count (q.q3 == q.q4) c.nBands * (p / count (q.q3 == q.q4) c.nBands) := Nat.mul_comm _ _
  have h34 : p - p / count (q.q3 == q.q4) c.nBands * count (q.q3 == q.q4) c.nBands < count (q.q3 == q.q4) c.nBands := by rw [hmul]; omega
  obtain ⟨a1, a2⟩ := split_spec h12
  obtain ⟨b1, b2⟩ := split_spec h34
  refine ⟨a1, b1, ?_, ⟨rfl, rfl, rfl, rfl⟩⟩
  show idx _ _ (splitDoublet _ _ _).1 (splitDoublet _ _ _).2 * _ + idx _ _ (splitDoublet _ _ _).1 (splitDoublet _ _ _).2 = p
  rw [a2, b2, hmul]
  omega

theorem advance_at {q : Quad} {p : ℕ} {t : St G R nSp} (h : At c q p t) (hp : p + 1 < c.total q) : At c q (p + 1) (c.advance q t) := by
  obtain ⟨v12, v34, pos, s⟩ := h
  obtain ⟨i1, i2, i3, i4, w1, K, w3, n⟩ := t
  have hs1 := s.w1
  have hs3 := s.w3
  have hsK := s.Kn12
  simp only at v12 v34 pos hs1 hs3 hsK
  have hNb : 0 < c.nBands := by have := v12.1; omega
  have hl34 : (if (q.q3 == q.q4) = true then i3 + 1 else c.nBands) = lim (q.q3 == q.q4) c.nBands i3 := rfl
  have hl12 : (if (q.q1 == q.q2) = true then i1 + 1 else c.nBands) = lim (q.q1 == q.q2) c.nBands i1 := rfl
  have hz34 : Valid (q.q3 == q.q4) c.nBands 0 0 := ⟨hNb, by unfold lim; split <;> omega⟩
  have hz0 : idx (q.q3 == q.q4) c.nBands 0 0 = 0 := by cases (q.q3 == q.q4) <;> simp [idx]
  unfold Calc.advance
  simp only
  rw [hl34]
  by_cases h4 : i4 + 1 = lim (q.q3 == q.q4) c.nBands i3
  · have hnext : idx (q.q3 == q.q4) c.nBands (i3 + 1) 0 = idx (q.q3 == q.q4) c.nBands i3 i4 + 1 := by rw [← idx_end, ← h4, idx_succ]
    rw [if_pos h4]
    by_cases h3 : i3 + 1 = c.nBands
    · rw [if_pos h3, hl12]
      have hfull : idx (q.q3 == q.q4) c.nBands i3 i4 + 1 = count (q.q3 == q.q4) c.nBands := by rw [← hnext, h3, idx_count]
      by_cases h2 : i2 + 1 = lim (q.q1 == q.q2) c.nBands i1
      · rw [if_pos h2]
        have hn2 : idx (q.q1 == q.q2) c.nBands (i1 + 1) 0 = idx (q.q1 == q.q2) c.nBands i1 i2 + 1 := by rw [← idx_end, ← h2, idx_succ]
        have hi1 : i1 + 1 < c.nBands := by
          by_contra hc
          have h1 : i1 + 1 = c.nBands := by have := v12.1; omega
          rw [h1, idx_count] at hn2
          unfold Calc.total at hp
          rw [hn2] at hp
          have : (idx (q.q1 == q.q2) c.nBands i1 i2 + 1) * count (q.q3 == q.q4) c.nBands = idx (q.q1 == q.q2) c.nBands i1 i2 * count (q.q3 == q.q4) c.nBands + count (q.q3 == q.q4) c.nBands := by ring
          omega
        refine ⟨⟨hi1, by show 0 < lim (q.q1 == q.q2) c.nBands (i1 + 1); unfold lim; split <;> omega⟩, hz34, ?_, ⟨rfl, rfl, rfl, rfl⟩⟩
        show idx _ _ (i1 + 1) 0 * _ + idx _ _ 0 0 = p + 1
        rw [hn2, hz0, add_mul, one_mul]
        omega
      · rw [if_neg h2]
        refine ⟨⟨v12.1, by have := v12.2; show i2 + 1 < lim (q.q1 == q.q2) c.nBands i1; omega⟩, hz34, ?_, ⟨hs1, rfl, ?_, rfl⟩⟩
        · show idx _ _ i1 (i2 + 1) * _ + idx _ _ 0 0 = p + 1
          rw [idx_succ, hz0, add_mul, one_mul]
          omega
        · show c.coul _ (c.nPair w1 _ _ _) = _
          rw [hs1]
          rfl
    · rw [if_neg h3]
      refine ⟨v12, ⟨by have := v34.1; show i3 + 1 < _; omega, by show 0 < lim (q.q3 == q.q4) c.nBands (i3 + 1); unfold lim; split <;> omega⟩, ?_, ⟨hs1, rfl, hsK, rfl⟩⟩
      show idx _ _ i1 i2 * _ + idx _ _ (i3 + 1) 0 = p + 1
      rw [hnext]
      omega
  · rw [if_neg h4]
    refine ⟨v12, ⟨v34.1, by have := v34.2; show i4 + 1 < lim (q.q3 == q.q4) c.nBands i3; omega⟩, ?_, ⟨hs1, hs3, hsK, ?_⟩⟩
    · show idx _ _ i1 i2 * _ + idx _ _ i3 (i4 + 1) = p + 1
      rw [idx_succ]
      omega
    · exact congrArg (fun w => c.nPair w q.q4 (i4 + 1) fun j => c.dk q.q3 q.q4 j - c.dk q.q1 q.q2 j) hs3

theorem loop_eq (q : Quad) (n p : ℕ) (h : p + n ≤ c.total q) : c.loop q n (c.first q p) = (List.range' p n).map (c.first q) := by
  induction n generalizing p with
  | zero => rfl
  | succ n ih =>
    cases n with
    | zero => rfl
    | succ n =>
      have e : c.advance q (c.first q p) = c.first q (p + 1) := (advance_at (first_at (by omega)) (by omega)).unique (first_at (by omega))
      show c.first q p :: c.loop q (n + 1) (c.advance q (c.first q p)) = _
      rw [e, ih (p + 1) (by omega)]
      rfl

theorem process_eq (q : Quad) (P p : ℕ) (h : p < P) : c.process q P p = (Spec.interval ((p * c.total q) / P) (((p + 1) * c.total q) / P)).map (c.first q) := by
  unfold Calc.process
  rw [TaskDiv.init_eq _ _ _ h]
  have h1 : ((p + 1) * c.total q) / P ≤ c.total q := Nat.div_le_of_le_mul (Nat.mul_le_mul_right _ h)
  have h2 := TaskDiv.div_mono (c.total q) P p
  simp only
  rw [loop_eq _ _ _ (by omega)]
  rfl

theorem processes_eq (q : Quad) (P : ℕ) (hP : 0 < P) : (List.range P).flatMap (c.process q P) = (List.range (c.total q)).map (c.first q) := by
  have h := TaskDiv.cover_of_mono (fun i => (i * c.total q) / P) (by simp) (fun i => TaskDiv.div_mono _ P i) P
  simp only [Nat.mul_div_cancel_left _ hP] at h
  rw [← h, List.flatMap_map, List.map_flatMap]
  unfold List.flatMap
  congr 1
  refine List.map_congr_left fun p hp => ?_
  exact process_eq q P p (List.mem_range.1 hp)

end
end Jdftx.FCI
