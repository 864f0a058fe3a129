import Verif.Spec.ExactX
import Mathlib.Tactic.Ring
import Mathlib.Tactic.Linarith
import Mathlib.Data.List.Basic
import Mathlib.Algebra.BigOperators.Group.List.Basic

/-!
# Lemmas for C97: the division of bands over processes
-/
namespace Jdftx.EXX

/-- Costs of all bands, one after another. -/
def flat (jCost : List Nat) (nB : Nat) : List Nat := jCost.flatMap fun c => List.replicate nB c

/-- Cost before a band. -/
def pre (jCost : List Nat) (nB i : Nat) : Nat := ((flat jCost nB).take i).sum

theorem flat_length (jCost : List Nat) (nB : Nat) : (flat jCost nB).length = jCost.length * nB := by
  unfold flat
  induction jCost with
  | nil => simp
  | cons c l ih => simp only [List.flatMap_cons, List.length_append, List.length_replicate, ih, List.length_cons]; ring

theorem costPrev_length (jCost : List Nat) (nB : Nat) : (costPrev jCost nB).length = jCost.length * nB + 1 := by
  unfold costPrev
  rw [List.length_scanl]
  exact congrArg (· + 1) (flat_length jCost nB)

theorem costPrev_get (jCost : List Nat) (nB i : Nat) (h : i < (costPrev jCost nB).length) : (costPrev jCost nB)[i] = pre jCost nB i := by
  have e : (costPrev jCost nB)[i] = ((flat jCost nB).take i).foldl (· + ·) 0 := List.getElem_scanl h
  rw [e]
  show _ = ((flat jCost nB).take i).sum
  rw [List.sum_eq_foldl]

theorem costPrev_last (jCost : List Nat) (nB : Nat) : (costPrev jCost nB).getLastD 0 = pre jCost nB (jCost.length * nB) := by
  have hl := costPrev_length jCost nB
  have hne : costPrev jCost nB ≠ [] := by intro h; rw [h] at hl; simp at hl
  rw [List.getLastD_eq_getLast?, List.getLast?_eq_getLast_of_ne_nil hne, Option.getD_some, List.getLast_eq_getElem, costPrev_get]
  congr 1
  omega

theorem pre_zero (jCost : List Nat) (nB : Nat) : pre jCost nB 0 = 0 := by simp [pre]

theorem pre_succ (jCost : List Nat) (nB i : Nat) (h : i < jCost.length * nB) : pre jCost nB (i + 1) = pre jCost nB i + (flat jCost nB)[i]'(by rw [flat_length]; exact h) := by
  unfold pre
  rw [List.take_succ_eq_append_getElem (by rw [flat_length]; exact h), List.sum_append]
  simp

theorem flat_mem (jCost : List Nat) (nB : Nat) (c : Nat) (h : c ∈ flat jCost nB) : c ∈ jCost := by
  unfold flat at h
  obtain ⟨x, hx, hc⟩ := List.mem_flatMap.1 h
  rw [List.mem_replicate] at hc
  rw [hc.2]; exact hx

theorem pre_lt (jCost : List Nat) (nB : Nat) (hp : ∀ c ∈ jCost, 0 < c) (i j : Nat) (hij : i < j) (hj : j ≤ jCost.length * nB) : pre jCost nB i < pre jCost nB j := by
  induction j with
  | zero => omega
  | succ j ih =>
    rw [pre_succ jCost nB j (by omega)]
    have h1 : 0 < (flat jCost nB)[j]'(by rw [flat_length]; omega) := hp _ (flat_mem jCost nB _ (List.getElem_mem _))
    rcases Nat.lt_or_ge i j with h | h
    · have := ih h (by omega); omega
    · have : i = j := by omega
      subst this; omega

section
variable (jCost : List Nat) (nB nProc : Nat)

/-- The share of the cost before a process. -/
def target (j : Nat) : Nat := (j * pre jCost nB (jCost.length * nB)) / nProc

theorem start_spec (hn : 0 < nProc) (j : Nat) (hj : j ≤ nProc) :
    startIndex jCost nB nProc j ≤ jCost.length * nB ∧ target jCost nB nProc j ≤ pre jCost nB (startIndex jCost nB nProc j) ∧
      ∀ i < startIndex jCost nB nProc j, pre jCost nB i < target jCost nB nProc j := by
  have ht : target jCost nB nProc j ≤ pre jCost nB (jCost.length * nB) := by
    unfold target
    rw [Nat.div_le_iff_le_mul_add_pred hn]
    have := Nat.mul_le_mul_right (pre jCost nB (jCost.length * nB)) hj
    omega
  have e : startIndex jCost nB nProc j = (costPrev jCost nB).findIdx fun x => decide (¬ x < target jCost nB nProc j) := by
    unfold startIndex lowerBound target
    rw [costPrev_last]
  have hl := costPrev_length jCost nB
  have hlt : startIndex jCost nB nProc j < (costPrev jCost nB).length := by
    rw [e, List.findIdx_lt_length]
    refine ⟨(costPrev jCost nB)[jCost.length * nB]'(by omega), List.getElem_mem _, ?_⟩
    rw [costPrev_get]
    simpa using ht
  refine ⟨by omega, ?_, fun i hi => ?_⟩
  · have h := List.findIdx_getElem (p := fun x => decide (¬ x < target jCost nB nProc j)) (xs := costPrev jCost nB) (w := by rw [← e]; exact hlt)
    rw [costPrev_get, ← e] at h
    simpa using h
  · rw [e] at hi
    have h := List.not_of_lt_findIdx hi
    rw [costPrev_get] at h
    simpa using h

theorem target_mono (i j : Nat) (h : i ≤ j) : target jCost nB nProc i ≤ target jCost nB nProc j :=
  Nat.div_le_div_right (Nat.mul_le_mul_right _ h)

theorem start_mono (hn : 0 < nProc) (j : Nat) (hj : j < nProc) : startIndex jCost nB nProc j ≤ startIndex jCost nB nProc (j + 1) := by
  obtain ⟨a1, a2, a3⟩ := start_spec jCost nB nProc hn j (by omega)
  obtain ⟨b1, b2, b3⟩ := start_spec jCost nB nProc hn (j + 1) (by omega)
  by_contra h
  have := a3 _ (not_le.1 h)
  have := target_mono jCost nB nProc j (j + 1) (by omega)
  omega

theorem start_zero (hn : 0 < nProc) : startIndex jCost nB nProc 0 = 0 := by
  obtain ⟨a1, a2, a3⟩ := start_spec jCost nB nProc hn 0 (by omega)
  by_contra h
  have := a3 0 (by omega)
  simp [target] at this

theorem start_last (hn : 0 < nProc) (hp : ∀ c ∈ jCost, 0 < c) : startIndex jCost nB nProc nProc = jCost.length * nB := by
  obtain ⟨a1, a2, a3⟩ := start_spec jCost nB nProc hn nProc le_rfl
  by_contra h
  have := pre_lt jCost nB hp _ _ (lt_of_le_of_ne a1 h) le_rfl
  have e : target jCost nB nProc nProc = pre jCost nB (jCost.length * nB) := by
    unfold target
    exact Nat.mul_div_cancel_left _ hn
  omega

theorem countP_range (p : Nat → Bool) (k L : Nat) (hp : ∀ i, p i = true → i = k) : (List.range L).countP p = if k < L ∧ p k = true then 1 else 0 := by
  induction L with
  | zero => simp
  | succ L ih =>
    rw [List.range_succ, List.countP_append, ih]
    by_cases hL : p L = true
    · have := hp L hL
      subst this
      simp [hL]
    · simp only [List.countP_cons, List.countP_nil, hL]
      by_cases hk : k = L
      · subst hk; simp [hL]
      · have : (k < L + 1) ↔ k < L := by omega
        simp [this]

theorem mul_cases (nB q q' : Nat) (h : q < q') : q * nB + nB ≤ q' * nB := by
  have := Nat.mul_le_mul_right nB (show q + 1 ≤ q' from h)
  rw [Nat.add_mul, one_mul] at this
  exact this

theorem chunk_count (hB : 0 < nB) (j q b : Nat) (hb : b < nB) (hs : startIndex jCost nB nProc j ≤ startIndex jCost nB nProc (j + 1)) :
    (chunks jCost nB nProc j).countP (fun c => decide (c.has q b)) =
      if startIndex jCost nB nProc j ≤ q * nB + b ∧ q * nB + b < startIndex jCost nB nProc (j + 1) then 1 else 0 := by
  unfold chunks
  simp only []
  generalize startIndex jCost nB nProc j = i0 at *
  generalize startIndex jCost nB nProc (j + 1) = i1 at *
  have e0 := Nat.div_add_mod i0 nB
  have e1 := Nat.div_add_mod i1 nB
  have m0 := Nat.mod_lt i0 hB
  have m1 := Nat.mod_lt i1 hB
  have hq : i0 / nB ≤ i1 / nB := Nat.div_le_div_right hs
  rw [mul_comm] at e0 e1
  have f0 : i0 - i0 / nB * nB = i0 % nB := by omega
  have f1 : i1 - i1 / nB * nB = i1 % nB := by omega
  rw [f0, f1]
  generalize i0 / nB = q0 at *
  generalize i1 / nB = q1 at *
  generalize i0 % nB = b0 at *
  generalize i1 % nB = b1 at *
  rw [List.countP_map, countP_range _ (q - q0) _ (fun i hi => by
    simp only [Function.comp_apply, decide_eq_true_eq] at hi
    unfold Chunk.has at hi
    simp only [] at hi
    omega)]
  simp only [Function.comp_apply, decide_eq_true_eq]
  unfold Chunk.has
  simp only []
  congr 1
  rw [eq_iff_iff]
  constructor
  · rintro ⟨h1, h2, h3, h4⟩
    constructor
    · rcases Nat.lt_or_ge q0 q with h | h
      · have := mul_cases nB q0 q h; omega
      · have : q = q0 := by omega
        subst this
        rw [if_pos (by omega)] at h3; omega
    · rcases Nat.lt_or_ge q q1 with h | h
      · have := mul_cases nB q q1 h; omega
      · have hb1 : b1 ≠ 0 := by
          intro h0
          rw [if_pos h0] at h1; omega
        rw [if_neg hb1] at h1
        have : q = q1 := by omega
        subst this
        rw [if_pos (by omega)] at h4; omega
  · rintro ⟨h1, h2⟩
    have hq0 : q0 ≤ q := by
      by_contra h
      have := mul_cases nB q q0 (by omega); omega
    have hq1 : q ≤ q1 := by
      by_contra h
      have := mul_cases nB q1 q (by omega); omega
    have he : q0 + (q - q0) = q := by omega
    rw [he]
    refine ⟨?_, rfl, ?_, ?_⟩
    · by_cases h0 : b1 = 0
      · rw [if_pos h0]
        have : q ≠ q1 := by rintro rfl; omega
        omega
      · rw [if_neg h0]; omega
    · by_cases h : q = q0
      · rw [if_pos h]; subst h; omega
      · rw [if_neg h]; omega
    · by_cases h : q = q1
      · rw [if_pos h]; subst h; omega
      · rw [if_neg h]; exact hb

theorem all_count (hB : 0 < nB) (hn : 0 < nProc) (n q b : Nat) (hb : b < nB) (hnn : n ≤ nProc) :
    ((List.range n).flatMap fun j => chunks jCost nB nProc j).countP (fun c => decide (c.has q b)) =
      if q * nB + b < startIndex jCost nB nProc n then 1 else 0 := by
  induction n with
  | zero => rw [start_zero jCost nB nProc hn]; simp
  | succ n ih =>
    have hm := start_mono jCost nB nProc hn n (by omega)
    rw [List.range_succ, List.flatMap_append, List.countP_append, ih (by omega), List.flatMap_cons, List.flatMap_nil, List.append_nil, chunk_count jCost nB nProc hB n q b hb hm]
    split_ifs <;> omega

/-- Chunks are in range. -/
theorem chunk_range (hB : 0 < nB) (hn : 0 < nProc) (j : Nat) (hj : j < nProc) (c : Chunk) (hc : c ∈ chunks jCost nB nProc j) :
    c.iq < jCost.length ∧ c.bStart < nB ∧ c.bStart ≤ c.bStop ∧ c.bStop ≤ nB ∧ 0 < c.bStop := by
  have hs := start_mono jCost nB nProc hn j hj
  have hl := (start_spec jCost nB nProc hn (j + 1) (by omega)).1
  unfold chunks at hc
  simp only [] at hc
  generalize startIndex jCost nB nProc j = i0 at *
  generalize startIndex jCost nB nProc (j + 1) = i1 at *
  have e0 := Nat.div_add_mod i0 nB
  have e1 := Nat.div_add_mod i1 nB
  have m0 := Nat.mod_lt i0 hB
  have m1 := Nat.mod_lt i1 hB
  have hq : i0 / nB ≤ i1 / nB := Nat.div_le_div_right hs
  rw [mul_comm] at e0 e1
  have f0 : i0 - i0 / nB * nB = i0 % nB := by omega
  have f1 : i1 - i1 / nB * nB = i1 % nB := by omega
  rw [f0, f1] at hc
  generalize i0 / nB = q0 at *
  generalize i1 / nB = q1 at *
  generalize i0 % nB = b0 at *
  generalize i1 % nB = b1 at *
  obtain ⟨i, hi, rfl⟩ := List.mem_map.1 hc
  rw [List.mem_range] at hi
  simp only []
  have hlen : q0 + i < jCost.length := by
    by_contra h
    have h1 : q0 + i ≤ q1 := by split_ifs at hi <;> omega
    have h2 : jCost.length * nB ≤ q1 * nB := Nat.mul_le_mul_right nB (by omega)
    have h3 : q1 * nB = jCost.length * nB := by omega
    have h4 : b1 = 0 := by omega
    rw [if_pos h4] at hi
    have h5 : q1 = jCost.length := Nat.eq_of_mul_eq_mul_right hB h3
    omega
  refine ⟨hlen, by split_ifs <;> omega, ?_, by split_ifs <;> omega, ?_⟩
  · by_cases hi0 : q0 + i = q0
    · rw [if_pos hi0]
      by_cases hi1 : q0 + i = q1
      · rw [if_pos hi1]
        have : q0 = q1 := by omega
        subst this; omega
      · rw [if_neg hi1]; omega
    · rw [if_neg hi0]; omega
  · by_cases hi1 : q0 + i = q1
    · rw [if_pos hi1]
      by_contra h
      rw [if_pos (by omega)] at hi; omega
    · rw [if_neg hi1]; omega

/-- Without a band that costs more than the share of a process, no chunk is empty. -/
theorem chunk_nonempty (hB : 0 < nB) (hn : 0 < nProc) (hm : ∀ c ∈ jCost, 0 < c ∧ nProc * c ≤ pre jCost nB (jCost.length * nB)) (j : Nat) (hj : j < nProc) (c : Chunk) (hc : c ∈ chunks jCost nB nProc j) : c.bStart < c.bStop := by
  have hlt : startIndex jCost nB nProc j < startIndex jCost nB nProc (j + 1) := by
    refine lt_of_le_of_ne (start_mono jCost nB nProc hn j hj) fun he => ?_
    obtain ⟨a1, a2, a3⟩ := start_spec jCost nB nProc hn j (by omega)
    obtain ⟨b1, b2, b3⟩ := start_spec jCost nB nProc hn (j + 1) (by omega)
    rw [← he] at b2 b3
    rcases Nat.eq_zero_or_pos (startIndex jCost nB nProc j) with h0 | h0
    · rw [h0, pre_zero] at b2
      -- the share is positive
      have hQ : 0 < jCost.length := by
        rcases Nat.eq_zero_or_pos jCost.length with h | h
        · exfalso
          have hz := (start_spec jCost nB nProc hn (j + 1) (by omega)).1
          unfold chunks at hc
          rw [h, Nat.zero_mul] at hz
          rw [← he, h0] at hc
          simp at hc
        · exact h
      obtain ⟨h1, h2⟩ := hm _ (List.getElem_mem hQ)
      have h3 : 1 ≤ target jCost nB nProc (j + 1) := by
        unfold target
        rw [Nat.one_le_div_iff hn]
        have := Nat.mul_le_mul_left nProc h1
        have h4 : pre jCost nB (jCost.length * nB) ≤ (j + 1) * pre jCost nB (jCost.length * nB) := Nat.le_mul_of_pos_left _ (by omega)
        omega
      omega
    · have h1 := a3 (startIndex jCost nB nProc j - 1) (by omega)
      have h2 := pre_succ jCost nB (startIndex jCost nB nProc j - 1) (by omega)
      rw [show startIndex jCost nB nProc j - 1 + 1 = startIndex jCost nB nProc j by omega] at h2
      obtain ⟨h3, h4⟩ := hm _ (flat_mem jCost nB _ (List.getElem_mem (l := flat jCost nB) (n := startIndex jCost nB nProc j - 1) (by rw [flat_length]; omega)))
      have h5 : target jCost nB nProc j + (flat jCost nB)[startIndex jCost nB nProc j - 1]'(by rw [flat_length]; omega) ≤ target jCost nB nProc (j + 1) := by
        unfold target
        rw [Nat.le_div_iff_mul_le hn, Nat.add_mul]
        have := Nat.div_mul_le_self (j * pre jCost nB (jCost.length * nB)) nProc
        rw [Nat.add_mul, one_mul]
        rw [mul_comm nProc] at h4
        omega
      omega
  unfold chunks at hc
  simp only [] at hc
  generalize startIndex jCost nB nProc j = i0 at *
  generalize startIndex jCost nB nProc (j + 1) = i1 at *
  have e0 := Nat.div_add_mod i0 nB
  have e1 := Nat.div_add_mod i1 nB
  have m0 := Nat.mod_lt i0 hB
  have m1 := Nat.mod_lt i1 hB
  have hq : i0 / nB ≤ i1 / nB := Nat.div_le_div_right hlt.le
  rw [mul_comm] at e0 e1
  have f0 : i0 - i0 / nB * nB = i0 % nB := by omega
  have f1 : i1 - i1 / nB * nB = i1 % nB := by omega
  rw [f0, f1] at hc
  generalize i0 / nB = q0 at *
  generalize i1 / nB = q1 at *
  generalize i0 % nB = b0 at *
  generalize i1 % nB = b1 at *
  obtain ⟨i, hi, rfl⟩ := List.mem_map.1 hc
  rw [List.mem_range] at hi
  simp only []
  by_cases hi0 : q0 + i = q0
  · rw [if_pos hi0]
    by_cases hi1 : q0 + i = q1
    · rw [if_pos hi1]
      have : q0 = q1 := by omega
      subst this; omega
    · rw [if_neg hi1]; omega
  · rw [if_neg hi0]
    by_cases hi1 : q0 + i = q1
    · rw [if_pos hi1]
      by_contra h
      rw [if_pos (by omega)] at hi; omega
    · rw [if_neg hi1]; omega

/-- The cost of a process. -/
theorem start_cost (hn : 0 < nProc) (M : Nat) (hM : ∀ c ∈ jCost, c ≤ M) (j : Nat) (hj : j < nProc) :
    pre jCost nB (startIndex jCost nB nProc (j + 1)) ≤ pre jCost nB (startIndex jCost nB nProc j) + pre jCost nB (jCost.length * nB) / nProc + 1 + M := by
  obtain ⟨a1, a2, a3⟩ := start_spec jCost nB nProc hn j (by omega)
  obtain ⟨b1, b2, b3⟩ := start_spec jCost nB nProc hn (j + 1) (by omega)
  have ht : target jCost nB nProc (j + 1) ≤ target jCost nB nProc j + pre jCost nB (jCost.length * nB) / nProc + 1 := by
    unfold target
    generalize pre jCost nB (jCost.length * nB) = T
    rw [Nat.add_mul, one_mul, Nat.add_div hn]
    split_ifs <;> omega
  rcases Nat.eq_zero_or_pos (startIndex jCost nB nProc (j + 1)) with h0 | h0
  · rw [h0, pre_zero]; omega
  · have h1 := b3 (startIndex jCost nB nProc (j + 1) - 1) (by omega)
    have h2 := pre_succ jCost nB (startIndex jCost nB nProc (j + 1) - 1) (by omega)
    rw [show startIndex jCost nB nProc (j + 1) - 1 + 1 = startIndex jCost nB nProc (j + 1) by omega] at h2
    have h3 := hM _ (flat_mem jCost nB _ (List.getElem_mem (l := flat jCost nB) (n := startIndex jCost nB nProc (j + 1) - 1) (by rw [flat_length]; omega)))
    omega

end
end Jdftx.EXX
