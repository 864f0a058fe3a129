import Verif.Spec.Energies
import Mathlib.Algebra.BigOperators.Group.List.Basic
import Mathlib.Tactic.Abel
import Mathlib.Tactic.Tauto
/-! # Lemmas on energy components -/
namespace Jdftx.Ener

open Jdftx.Input (Str)

variable {α : Type} [AddCommGroup α] [DecidableEq α]

theorem char_toNat_inj : Function.Injective Char.toNat := by
  intro a b h
  exact Char.ext (UInt32.toNat_inj.mp h)

theorem low_iff (a b : Str) : low a = low b ↔ Same a b := by
  unfold low Same
  have h : ∀ k : Str, (k.map fun c => c.toLower.toNat) = (k.map Char.toLower).map Char.toNat := by intro k; simp
  rw [h, h]
  exact (List.map_injective_iff.mpr char_toNat_inj).eq_iff

/-- Names in strictly ascending order. -/
def Sorted (m : Comps α) : Prop := m.Pairwise fun a b => low a.1 < low b.1

omit [DecidableEq α] in
theorem mem_update (f : α → α) (k : Str) (m : Comps α) (e : Str × α) (h : e ∈ update f k m) :
    low e.1 = low k ∨ ∃ e' ∈ m, low e.1 = low e'.1 := by
  induction m with
  | nil => simp only [update, List.mem_singleton] at h; subst h; exact Or.inl rfl
  | cons p rest ih =>
    obtain ⟨k', v⟩ := p
    unfold update at h
    split_ifs at h with h1 h2
    · rcases List.mem_cons.mp h with h | h
      · subst h; exact Or.inl h1
      · exact Or.inr ⟨e, by simp [h], rfl⟩
    · rcases List.mem_cons.mp h with h | h
      · subst h; exact Or.inl rfl
      · exact Or.inr ⟨e, h, rfl⟩
    · rcases List.mem_cons.mp h with h | h
      · subst h; exact Or.inr ⟨(k', v), by simp, rfl⟩
      · rcases ih h with h | ⟨e', h3, h4⟩
        · exact Or.inl h
        · exact Or.inr ⟨e', by simp [h3], h4⟩

omit [DecidableEq α] in
theorem sorted_update (f : α → α) (k : Str) (m : Comps α) (h : Sorted m) : Sorted (update f k m) := by
  induction m with
  | nil => simp [Sorted, update]
  | cons p rest ih =>
    obtain ⟨k', v⟩ := p
    have hp := List.pairwise_cons.mp h
    unfold update
    split_ifs with h1 h2
    · exact List.pairwise_cons.mpr ⟨hp.1, hp.2⟩
    · refine List.pairwise_cons.mpr ⟨?_, h⟩
      intro e he
      rcases List.mem_cons.mp he with rfl | he
      · exact h2
      · exact lt_trans h2 (hp.1 e he)
    · refine List.pairwise_cons.mpr ⟨?_, ih hp.2⟩
      intro e he
      have h3 : low k' < low k := lt_of_le_of_ne (not_lt.mp h2) h1
      rcases mem_update f k rest e he with h4 | ⟨e', h4, h5⟩
      · show low k' < low e.1
        rw [h4]; exact h3
      · show low k' < low e.1
        rw [h5]; exact hp.1 e' h4

omit [DecidableEq α] in
theorem read_none (m : Comps α) (k : Str) (h : ∀ e ∈ m, low e.1 ≠ low k) : read m k = 0 := by
  induction m with
  | nil => rfl
  | cons p rest ih =>
    rw [read, if_neg (h p (by simp))]
    exact ih fun e he => h e (by simp [he])

omit [DecidableEq α] in
theorem read_update (f : α → α) (k n : Str) (m : Comps α) (h : Sorted m) :
    read (update f k m) n = if low k = low n then f (read m n) else read m n := by
  induction m with
  | nil => simp [update, read]
  | cons p rest ih =>
    obtain ⟨k', v⟩ := p
    have hp := List.pairwise_cons.mp h
    unfold update
    split_ifs with h1 h2 h3 h4 h5
    · simp [read, h1, h2]
    · have : low k' ≠ low n := by rw [h1]; exact h2
      simp [read, this]
    · have hz : read ((k', v) :: rest) n = 0 := by
        apply read_none
        intro e he
        rw [← h4]
        rcases List.mem_cons.mp he with rfl | he
        · exact h1
        · exact ne_of_gt (lt_trans h3 (hp.1 e he))
      rw [hz]; simp [read, h4]
    · rw [read, if_neg h4]
    · have : low k' ≠ low n := by rw [← h5]; exact h1
      simp only [read, if_neg this]
      rw [ih hp.2, if_pos h5]
    · simp only [read]
      rw [ih hp.2]; simp [*]

omit [DecidableEq α] in
theorem total_aux (m : Comps α) (a : α) : m.foldl (fun ret e => ret + e.2) a = a + (m.map (·.2)).sum := by
  induction m generalizing a with
  | nil => simp
  | cons p rest ih => rw [List.foldl_cons, ih, List.map_cons, List.sum_cons, add_assoc]

omit [DecidableEq α] in
theorem total_eq (m : Comps α) : total m = (m.map (·.2)).sum := by
  unfold total; rw [total_aux, zero_add]

omit [DecidableEq α] in
theorem total_cons (p : Str × α) (m : Comps α) : total (p :: m) = p.2 + total m := by
  simp [total_eq]

omit [DecidableEq α] in
theorem total_update (f : α → α) (k : Str) (m : Comps α) (h : Sorted m) :
    total (update f k m) = total m - read m k + f (read m k) := by
  induction m with
  | nil => simp [update, total_eq, read]
  | cons p rest ih =>
    obtain ⟨k', v⟩ := p
    have hp := List.pairwise_cons.mp h
    unfold update
    split_ifs with h1 h2
    · simp only [total_cons, read, h1, if_true]; abel
    · have hz : read ((k', v) :: rest) k = 0 := by
        apply read_none
        intro e he
        rcases List.mem_cons.mp he with rfl | he
        · exact h1
        · exact ne_of_gt (lt_trans h2 (hp.1 e he))
      rw [hz, total_cons]; simp only [sub_zero]; abel
    · rw [total_cons, ih hp.2, total_cons, read, if_neg h1]; abel

omit [DecidableEq α] in
theorem sorted_after (ops : List (Op α)) : Sorted (after ops) := by
  induction ops with
  | nil => simp [Sorted, after]
  | cons o ops ih =>
    cases o with
    | set k v => exact sorted_update _ _ _ ih
    | add k v => exact sorted_update _ _ _ ih
    | assign v => exact sorted_update _ _ _ (by simp [Sorted])
    | incr v => exact sorted_update _ _ _ ih

omit [DecidableEq α] in
theorem read_after (ops : List (Op α)) (k : Str) : read (after ops) k = value ops k := by
  induction ops with
  | nil => rfl
  | cons o ops ih =>
    cases o with
    | set n v =>
      show read (update _ n (after ops)) k = _
      rw [read_update _ _ _ _ (sorted_after ops), value, if_congr (low_iff n k) rfl ih]
    | add n v =>
      show read (update _ n (after ops)) k = _
      rw [read_update _ _ _ _ (sorted_after ops), value, ih, if_congr (low_iff n k) rfl rfl]
    | assign v =>
      show read (update (fun _ => v) defaultName ([] : Comps α)) k = _
      rw [read_update _ _ _ _ (by simp [Sorted]), value, if_congr (low_iff _ k) rfl rfl]
      rfl
    | incr v =>
      show read (update _ defaultName (after ops)) k = _
      rw [read_update _ _ _ _ (sorted_after ops), value, ih, if_congr (low_iff _ k) rfl rfl]
      rfl

theorem total_after (ops : List (Op α)) : total (after ops) = sum ops := by
  induction ops with
  | nil => rfl
  | cons o ops ih =>
    cases o with
    | set n v =>
      show total (update _ n (after ops)) = _
      rw [total_update _ _ _ (sorted_after ops), ih, read_after, sum]
    | add n v =>
      show total (update _ n (after ops)) = _
      rw [total_update _ _ _ (sorted_after ops), ih, sum]; abel
    | assign v =>
      show total (update (fun _ => v) defaultName ([] : Comps α)) = _
      simp [update, total_eq, sum]
    | incr v =>
      show total (update _ defaultName (after ops)) = _
      rw [total_update _ _ _ (sorted_after ops), ih, sum]; abel

/-- The loop of `lines` from some lines on. -/
def linesFrom (b : Bool) (acc m : Comps α) : Comps α :=
  m.foldl (fun acc e => if !b || e.2 ≠ 0 then update (fun x => x + e.2) (reducedName e.1) acc else acc) acc

theorem linesFrom_spec (b : Bool) (m acc : Comps α) (h : Sorted acc) :
    Sorted (linesFrom b acc m) ∧ total (linesFrom b acc m) = total acc + total m ∧
    ∀ n, read (linesFrom b acc m) n =
      read acc n + ((m.filter fun e => decide (low (reducedName e.1) = low n)).map (·.2)).sum := by
  induction m generalizing acc with
  | nil => simp [linesFrom, h, total_eq]
  | cons p rest ih =>
    by_cases hc : (!b || decide (p.2 ≠ 0)) = true
    · have hs := sorted_update (fun x => x + p.2) (reducedName p.1) acc h
      have e1 : linesFrom b acc (p :: rest) = linesFrom b (update (fun x => x + p.2) (reducedName p.1) acc) rest := by
        simp only [linesFrom, List.foldl_cons]; rw [if_pos hc]
      obtain ⟨i1, i2, i3⟩ := ih _ hs
      rw [e1]
      refine ⟨i1, ?_, ?_⟩
      · rw [i2, total_update _ _ _ h, total_cons]; abel
      · intro n
        rw [i3, read_update _ _ _ _ h, List.filter_cons]
        by_cases hn : low (reducedName p.1) = low n
        · simp only [hn, if_true, decide_true, List.map_cons, List.sum_cons]; abel
        · simp [hn]
    · have hz : p.2 = 0 := by
        by_contra h0
        exact hc (by simp [h0])
      have e1 : linesFrom b acc (p :: rest) = linesFrom b acc rest := by
        simp only [linesFrom, List.foldl_cons]; rw [if_neg hc]
      obtain ⟨i1, i2, i3⟩ := ih _ h
      rw [e1]
      refine ⟨i1, ?_, ?_⟩
      · rw [i2, total_cons, hz, zero_add]
      · intro n
        rw [i3, List.filter_cons]
        by_cases hn : low (reducedName p.1) = low n
        · simp [hn, hz]
        · simp [hn]

theorem stripped_reduced (k : Str) : Stripped k (reducedName k) := by
  unfold Stripped reducedName
  refine ⟨(k.reverse.takeWhile fun c => c.isDigit || c = '-').reverse, ?_, ?_, ?_⟩
  · rw [← List.reverse_append, List.takeWhile_append_dropWhile, List.reverse_reverse]
  · intro c hc
    have h := List.all_takeWhile (p := fun c : Char => c.isDigit || c = '-') (l := k.reverse)
    rw [List.all_eq_true] at h
    simpa using h c (List.mem_reverse.mp hc)
  · intro c hc
    rw [List.getLast?_reverse] at hc
    have h := List.head?_dropWhile_not (fun c : Char => c.isDigit || c = '-') k.reverse
    rw [Option.mem_def] at hc
    rw [hc] at h
    simpa using h

theorem mem_names (b : Bool) (m acc : Comps α) (e : Str × α) (h : e ∈ linesFrom b acc m) :
    (∃ e' ∈ acc, low e.1 = low e'.1) ∨ ∃ e' ∈ m, low e.1 = low (reducedName e'.1) ∧ (b = true → e'.2 ≠ 0) := by
  induction m generalizing acc with
  | nil => exact Or.inl ⟨e, h, rfl⟩
  | cons p rest ih =>
    have key := ih (if !b || p.2 ≠ 0 then update (fun x => x + p.2) (reducedName p.1) acc else acc) h
    rcases key with ⟨e', h1, h2⟩ | ⟨e', h1, h2⟩
    · split_ifs at h1 with hc
      · rcases mem_update _ _ _ _ h1 with h3 | ⟨e'', h3, h4⟩
        · refine Or.inr ⟨p, by simp, by rw [h2, h3], ?_⟩
          intro hb; simpa [hb] using hc
        · exact Or.inl ⟨e'', h3, by rw [h2, h4]⟩
      · exact Or.inl ⟨e', h1, h2⟩
    · exact Or.inr ⟨e', by simp [h1], h2⟩

omit [DecidableEq α] in
theorem update_has (f : α → α) (k : Str) (m : Comps α) : ∃ e ∈ update f k m, low e.1 = low k := by
  induction m with
  | nil => exact ⟨(k, f 0), by simp [update], rfl⟩
  | cons p rest ih =>
    unfold update
    split_ifs with h1 h2
    · exact ⟨_, List.mem_cons_self, h1⟩
    · exact ⟨_, List.mem_cons_self, rfl⟩
    · obtain ⟨e, h3, h4⟩ := ih
      exact ⟨e, by simp [h3], h4⟩

omit [DecidableEq α] in
theorem update_keeps (f : α → α) (k : Str) (m : Comps α) (e : Str × α) (he : e ∈ m) :
    ∃ e' ∈ update f k m, low e'.1 = low e.1 := by
  induction m with
  | nil => simp at he
  | cons p rest ih =>
    unfold update
    split_ifs with h1 h2
    · rcases List.mem_cons.mp he with rfl | he
      · exact ⟨_, List.mem_cons_self, rfl⟩
      · exact ⟨e, by simp [he], rfl⟩
    · exact ⟨e, by simp only [List.mem_cons] at he ⊢; tauto, rfl⟩
    · rcases List.mem_cons.mp he with rfl | he
      · exact ⟨_, List.mem_cons_self, rfl⟩
      · obtain ⟨e', h3, h4⟩ := ih he
        exact ⟨e', by simp [h3], h4⟩

theorem linesFrom_keeps (b : Bool) (m acc : Comps α) (e : Str × α) (he : e ∈ acc) :
    ∃ e' ∈ linesFrom b acc m, low e'.1 = low e.1 := by
  induction m generalizing acc e with
  | nil => exact ⟨e, he, rfl⟩
  | cons p rest ih =>
    have key : ∃ e' ∈ (if !b || p.2 ≠ 0 then update (fun x => x + p.2) (reducedName p.1) acc else acc), low e'.1 = low e.1 := by
      split_ifs
      · exact update_keeps _ _ _ e he
      · exact ⟨e, he, rfl⟩
    obtain ⟨e1, h1, h2⟩ := key
    obtain ⟨e2, h3, h4⟩ := ih _ e1 h1
    exact ⟨e2, h3, h4.trans h2⟩

theorem linesFrom_has (b : Bool) (m acc : Comps α) (c : Str × α) (hc : c ∈ m) (h0 : b = true → c.2 ≠ 0) :
    ∃ e ∈ linesFrom b acc m, low e.1 = low (reducedName c.1) := by
  induction m generalizing acc with
  | nil => simp at hc
  | cons p rest ih =>
    rcases List.mem_cons.mp hc with rfl | hc
    · obtain ⟨e, h1, h2⟩ := update_has (fun x => x + c.2) (reducedName c.1) acc
      obtain ⟨e', h3, h4⟩ := linesFrom_keeps b rest _ e h1
      refine ⟨e', ?_, h4.trans h2⟩
      have hb : (!b || decide (c.2 ≠ 0)) = true := by cases b <;> simp_all
      have e1 : linesFrom b acc (c :: rest) = linesFrom b (update (fun x => x + c.2) (reducedName c.1) acc) rest := by
        simp only [linesFrom, List.foldl_cons]; rw [if_pos hb]
      rw [e1]; exact h3
    · exact ih _ hc

end Jdftx.Ener
