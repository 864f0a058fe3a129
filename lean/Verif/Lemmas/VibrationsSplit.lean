import Verif.Model.Vibrations
import Mathlib.Algebra.Order.Floor.Ring
import Mathlib.Data.List.Sort
import Mathlib.Data.List.GetD
import Mathlib.Tactic.Linarith

/-!
# Lemmas for C105: where the cell is split
-/
namespace Jdftx.Vib
noncomputable section

theorem frac_range (x : ℝ) : 0 ≤ frac x ∧ frac x < 1 := by
  unfold frac
  exact ⟨sub_nonneg.2 (Int.floor_le x), by linarith [Int.lt_floor_add_one x]⟩

theorem frac_int (x : ℝ) : ∃ k : ℤ, frac x = x + k := ⟨-⌊x⌋, by unfold frac; push_cast; ring⟩

/-- Index of the largest element found by the fold. -/
theorem argmax_spec (dx : List ℝ) (n : ℕ) (b : ℕ) (hb : b < dx.length) (hn : n ≤ dx.length) :
    let i := (List.range n).foldl (fun b j => if dx.getD b 0 < dx.getD j 0 then j else b) b
    i < dx.length ∧ dx.getD b 0 ≤ dx.getD i 0 ∧ ∀ j < n, dx.getD j 0 ≤ dx.getD i 0 := by
  induction n with
  | zero => exact ⟨hb, le_rfl, fun j hj => absurd hj (Nat.not_lt_zero j)⟩
  | succ n ih =>
    obtain ⟨h1, h2, h3⟩ := ih (by omega)
    rw [List.range_succ, List.foldl_append, List.foldl_cons, List.foldl_nil]
    generalize hi : (List.range n).foldl (fun b j => if dx.getD b 0 < dx.getD j 0 then j else b) b = i at *
    intro i'
    have hi' : i' = if dx.getD i 0 < dx.getD n 0 then n else i := rfl
    split at hi'
    · rename_i hlt
      rw [hi']
      refine ⟨by omega, h2.trans hlt.le, fun j hj => ?_⟩
      rcases Nat.lt_succ_iff_lt_or_eq.1 hj with hj | rfl
      · exact (h3 j hj).trans hlt.le
      · exact le_rfl
    · rename_i hlt
      rw [hi']
      refine ⟨h1, h2, fun j hj => ?_⟩
      rcases Nat.lt_succ_iff_lt_or_eq.1 hj with hj | rfl
      · exact h3 j hj
      · exact not_lt.1 hlt

/-- Gap before element `i` of a sorted list on the circle. -/
def gap (s : List ℝ) (last : ℝ) (i : ℕ) : ℝ := s.getD i 0 - (if i = 0 then last - 1 else s.getD (i - 1) 0)

/-- The split point: it is the middle of a gap that is at least as long as all others. -/
theorem splitOf_spec (x : List ℝ) (hx : x ≠ []) :
    ∃ (s : List ℝ) (last : ℝ) (i : ℕ), s = (x.map frac).mergeSort (fun a b => decide (a ≤ b)) ∧ s.getLast? = some last ∧ i < s.length ∧ (∀ j < s.length, gap s last j ≤ gap s last i) ∧
      splitOf x = .ok (frac (s.getD i 0 - 0.5 * gap s last i)) := by
  generalize hs : (x.map frac).mergeSort (fun a b => decide (a ≤ b)) = s
  have hlen : s.length = x.length := by rw [← hs, List.length_mergeSort, List.length_map]
  have hpos : 0 < s.length := by rw [hlen]; exact List.length_pos_iff.2 hx
  obtain ⟨last, hlast⟩ : ∃ last, s.getLast? = some last := by
    rcases h : s.getLast? with _ | l
    · rw [List.getLast?_eq_none_iff] at h
      rw [h] at hpos; simp at hpos
    · exact ⟨l, rfl⟩
  set dx := s.zipIdx.map fun p => p.1 - (if p.2 = 0 then last - 1 else s.getD (p.2 - 1) 0) with hdx
  have hdl : dx.length = s.length := by rw [hdx, List.length_map, List.length_zipIdx]
  have hget : ∀ j < s.length, dx.getD j 0 = gap s last j := by
    intro j hj
    rw [List.getD_eq_getElem _ _ (by omega)]
    simp only [hdx, List.getElem_map, List.getElem_zipIdx, zero_add, gap, List.getD_eq_getElem _ _ hj]
  have ha := argmax_spec dx dx.length 0 (by omega) le_rfl
  refine ⟨s, last, _, rfl, hlast, by rw [← hdl]; exact ha.1, ?_, ?_⟩
  · intro j hj
    rw [← hget j hj, ← hget _ (by rw [← hdl]; exact ha.1)]
    exact ha.2.2 j (by omega)
  · unfold splitOf
    simp only [hs, hlast, ← hdx]
    rw [hget _ (by rw [← hdl]; exact ha.1)]

/-- Largest gap and points outside it, for atoms in less than half of the cell. -/
theorem gap_spec (x y : List ℝ) (hx : x ≠ []) (hi : ∀ j < x.length, ∃ k : ℤ, x.getD j 0 = y.getD j 0 + k)
    (hspan : ∀ i < x.length, ∀ j < x.length, y.getD i 0 - y.getD j 0 < 1 / 2) :
    ∃ (c g : ℝ), 1 / 2 < g ∧ splitOf x = .ok (frac c) ∧ ∀ a ∈ x, ∀ k : ℤ, ¬(c - g / 2 < a + k ∧ a + k < c + g / 2) := by
  obtain ⟨s, last, i, hs, hlast, hil, hmax, hsplit⟩ := splitOf_spec x hx
  have hmem : ∀ a, a ∈ s ↔ a ∈ x.map frac := fun a => by rw [hs, List.mem_mergeSort]
  have hsorted : s.Pairwise (· ≤ ·) := by
    rw [hs]
    have := List.pairwise_mergeSort (le := fun a b : ℝ => decide (a ≤ b)) (fun a b c h h' => by simp only [decide_eq_true_eq] at *; exact h.trans h')
      (fun a b => by simp only [Bool.or_eq_true, decide_eq_true_eq]; exact le_total a b) (x.map frac)
    exact this.imp (by simp)
  have hr : ∀ a ∈ s, 0 ≤ a ∧ a < 1 := by
    intro a ha
    obtain ⟨b, -, rfl⟩ := List.mem_map.1 ((hmem a).1 ha)
    exact frac_range b
  have hpos : 0 < s.length := by omega
  have hg : ∀ j (hj : j < s.length), s.getD j 0 = s[j] := fun j hj => List.getD_eq_getElem _ _ hj
  have hl : last = s.getD (s.length - 1) 0 := by
    have := hlast
    rw [List.getLast?_eq_getElem?, List.getElem?_eq_getElem (by omega)] at this
    rw [hg _ (by omega)]
    exact (Option.some.inj this).symm
  have hlm : last ∈ s := by rw [hl, hg _ (by omega)]; exact List.getElem_mem _
  have hmono : ∀ j k, j ≤ k → k < s.length → s.getD j 0 ≤ s.getD k 0 := by
    intro j k hjk hk
    rcases Nat.eq_or_lt_of_le hjk with rfl | h
    · exact le_rfl
    · rw [hg j (by omega), hg k hk]
      exact List.pairwise_iff_getElem.1 hsorted j k (by omega) hk h
  have hle : ∀ a ∈ s, a ≤ last := by
    intro a ha
    obtain ⟨j, hj, rfl⟩ := List.getElem_of_mem ha
    rw [hl, ← hg j hj]
    exact hmono _ _ (by omega) (by omega)
  -- every element of the sorted list is an image of some `y`
  have himg : ∀ a ∈ s, ∃ j < x.length, ∃ k : ℤ, a = y.getD j 0 + k := by
    intro a ha
    obtain ⟨b, hb, rfl⟩ := List.mem_map.1 ((hmem a).1 ha)
    obtain ⟨j, hj, rfl⟩ := List.getElem_of_mem hb
    obtain ⟨k, hk⟩ := hi j hj
    obtain ⟨k', hk'⟩ := frac_int x[j]
    refine ⟨j, hj, k + k', ?_⟩
    rw [hk', ← List.getD_eq_getElem _ 0 hj, hk]
    push_cast; ring
  -- some gap is long
  have hlong : 1 / 2 < gap s last i := by
    -- the first of the atoms
    obtain ⟨m, hm, hmin⟩ : ∃ m < x.length, ∀ j < x.length, y.getD m 0 ≤ y.getD j 0 := by
      have : (Finset.range x.length).Nonempty := ⟨0, Finset.mem_range.2 (List.length_pos_iff.2 hx)⟩
      obtain ⟨m, hm, h⟩ := Finset.exists_min_image _ (fun j => y.getD j 0) this
      exact ⟨m, Finset.mem_range.1 hm, fun j hj => h j (Finset.mem_range.2 hj)⟩
    have hpm : frac (x.getD m 0) ∈ s := by
      rw [hmem, List.getD_eq_getElem _ _ hm]
      exact List.mem_map_of_mem (List.getElem_mem _)
    obtain ⟨j0, hj0, hj0'⟩ := List.getElem_of_mem hpm
    have hex : ∃ j, j < s.length ∧ s.getD j 0 = frac (x.getD m 0) := ⟨j0, hj0, by rw [hg _ hj0]; exact hj0'⟩
    classical
    set j := Nat.find hex with hj
    have hj1 := Nat.find_spec hex
    rw [← hj] at hj1
    have hjmin : ∀ k < j, s.getD k 0 ≠ frac (x.getD m 0) := by
      intro k hk h
      exact Nat.find_min hex hk ⟨by omega, h⟩
    refine lt_of_lt_of_le ?_ (hmax j hj1.1)
    obtain ⟨k1, hk1⟩ := hi m hm
    obtain ⟨k2, hk2⟩ := frac_int (x.getD m 0)
    have hfin : ∀ (q : ℝ) (b : ℕ) (k : ℤ), b < x.length → q = y.getD b 0 + k → 0 < frac (x.getD m 0) - q → frac (x.getD m 0) - q ≤ 1 → 1 / 2 < frac (x.getD m 0) - q := by
      intro q b k hb hq hp hp'
      have e : frac (x.getD m 0) - q = y.getD m 0 - y.getD b 0 + ((k1 + k2 - k : ℤ) : ℝ) := by rw [hk2, hk1, hq]; push_cast; ring
      have h1 := hmin b hb
      have h2 := hspan b hb m hm
      rw [e] at hp hp' ⊢
      have : (0 : ℝ) < ((k1 + k2 - k : ℤ) : ℝ) := by linarith
      have : (1 : ℤ) ≤ k1 + k2 - k := by exact_mod_cast this
      have : (1 : ℝ) ≤ ((k1 + k2 - k : ℤ) : ℝ) := by exact_mod_cast this
      linarith
    unfold gap
    rw [hj1.2]
    split
    · rename_i h0
      obtain ⟨b, hb, k, hk⟩ := himg last hlm
      have hp := hr _ hpm
      have hq := hr _ hlm
      have hpl := hle _ hpm
      exact hfin (last - 1) b (k - 1) hb (by rw [hk]; push_cast; ring) (by linarith) (by linarith)
    · rename_i h0
      have hmem' : s.getD (j - 1) 0 ∈ s := by rw [hg _ (by omega)]; exact List.getElem_mem _
      obtain ⟨b, hb, k, hk⟩ := himg _ hmem'
      have hp := hr _ hpm
      have hq := hr _ hmem'
      have hm1 := hmono (j - 1) j (by omega) hj1.1
      rw [hj1.2] at hm1
      have := lt_of_le_of_ne hm1 (hjmin (j - 1) (by omega))
      exact hfin _ b k hb hk (by linarith) (by linarith)
  refine ⟨_, gap s last i, hlong, hsplit, ?_⟩
  intro a ha k hk
  have hfa : frac a ∈ s := (hmem _).2 (List.mem_map_of_mem ha)
  obtain ⟨k', hk'⟩ := frac_int a
  have hk2 : a + k = frac a + ((k - k' : ℤ) : ℝ) := by rw [hk']; push_cast; ring
  rw [hk2] at hk
  generalize k - k' = n at hk
  obtain ⟨h1, h2⟩ := hk
  have hup : frac a + n < s.getD i 0 := by linarith
  have hlo : (if i = 0 then last - 1 else s.getD (i - 1) 0) < frac a + n := by
    have : s.getD i 0 - 0.5 * gap s last i - gap s last i / 2 = if i = 0 then last - 1 else s.getD (i - 1) 0 := by
      unfold gap; ring
    linarith
  have hsi : s.getD i 0 ∈ s := by rw [hg _ hil]; exact List.getElem_mem _
  have hri := hr _ hsi
  have hra := hr _ hfa
  have hrl := hr _ hlm
  split at hlo
  · rename_i h0
    -- fractional coordinates lie between the first and the last
    have hla := hle _ hfa
    have hfirst : s.getD i 0 ≤ frac a := by
      obtain ⟨j, hj, hja⟩ := List.getElem_of_mem hfa
      rw [← hja, ← hg j hj, h0]
      exact hmono 0 j (Nat.zero_le _) hj
    have hn1 : (n : ℝ) < 0 := by linarith
    have hn1 : n < 0 := by exact_mod_cast hn1
    have : (n : ℝ) ≤ -1 := by exact_mod_cast (by omega : n ≤ -1)
    linarith
  · rename_i h0
    have hmem' : s.getD (i - 1) 0 ∈ s := by rw [hg _ (by omega)]; exact List.getElem_mem _
    have hrp := hr _ hmem'
    have hn1 : (n : ℝ) < 1 := by linarith
    have hn2 : (-1 : ℝ) < n := by linarith
    have hn1 : n < 1 := by exact_mod_cast hn1
    have hn2 : -1 < n := by exact_mod_cast hn2
    have hn0 : n = 0 := by omega
    subst hn0
    simp only [Int.cast_zero, add_zero] at hup hlo
    obtain ⟨j, hj, hja⟩ := List.getElem_of_mem hfa
    rw [← hja, ← hg j hj] at hup hlo
    rcases Nat.lt_or_ge j i with h | h
    · exact absurd (hmono j (i - 1) (by omega) (by omega)) (not_le.2 hlo)
    · exact absurd (hmono i j h hj) (not_le.2 hup)

theorem wrapAt_spec (c x : ℝ) : frac c - 1 < wrapAt (frac c) x ∧ wrapAt (frac c) x ≤ frac c + 0 ∧ ∃ k : ℤ, wrapAt (frac c) x = x + k := by
  obtain ⟨k, hk⟩ := frac_int x
  have h1 := frac_range x
  have h2 := frac_range c
  unfold wrapAt
  split
  · rename_i h
    exact ⟨by linarith, by linarith, k - 1, by rw [hk]; push_cast; ring⟩
  · rename_i h
    exact ⟨by linarith, by linarith, k, hk⟩

end
end Jdftx.Vib
