import Verif.Model.Citations
import Mathlib.Data.List.Nodup

/-!
# C17: citations

Full property: each cited paper is printed once with all its reasons, whatever the order of the calls.
This is false of the code (`C17_violation`): insertion keeps entries of equal *reason* together while
printing groups entries of equal *paper*. What holds for every history is `C17_pairs_partial`.
-/
namespace Jdftx.Cite

variable {P R : Type} [DecidableEq P] [DecidableEq R]

/-- Entries with one reason are adjacent: nothing else lies between two of them. -/
def Grouped : List (P × R) → Prop
  | [] => True
  | e :: rest => Grouped rest ∧ (∀ x ∈ rest, x.2 = e.2 → ∃ f tl, rest = f :: tl ∧ f.2 = e.2)

theorem mem_insertFrom (a : P × R) (b : Bool) (l : List (P × R)) (x : P × R) :
    x ∈ insertFrom a b l ↔ x = a ∨ x ∈ l := by
  induction l generalizing b with
  | nil => simp [insertFrom]
  | cons e rest ih =>
    unfold insertFrom
    split
    · simp
    split
    · split
      · rename_i h1 h2
        have : e = a := Prod.ext h2 h1
        simp [this]
      · simp [ih]; tauto
    · simp [ih]; tauto

/-- Head of a list has reason `r`. -/
def HeadIs (r : R) (l : List (P × R)) : Prop := ∃ f tl, l = f :: tl ∧ f.2 = r

theorem headIs_insertFrom_true (a : P × R) (l : List (P × R)) :
    HeadIs a.2 (insertFrom a true l) := by
  cases l with
  | nil => exact ⟨a, [], rfl, rfl⟩
  | cons e rest =>
    unfold insertFrom
    split
    · exact ⟨a, _, rfl, rfl⟩
    split
    · rename_i h
      split
      · exact ⟨e, _, rfl, h⟩
      · exact ⟨e, _, rfl, h⟩
    · rename_i h1 h2; simp at h1; exact absurd h1 h2

theorem headIs_insertFrom_of_head (a : P × R) (b : Bool) (l : List (P × R)) (r : R) (hr : r ≠ a.2)
    (hb : b = false) (h : HeadIs r l) : HeadIs r (insertFrom a b l) := by
  obtain ⟨f, tl, rfl, hf⟩ := h
  subst hb
  unfold insertFrom
  simp only [Bool.false_eq_true, false_and, if_false]
  rw [if_neg (by rw [hf]; exact hr)]
  exact ⟨f, _, rfl, hf⟩

theorem grouped_insertFrom (a : P × R) (b : Bool) (l : List (P × R)) (hl : Grouped l) 
    (hb : b = true → HeadIs a.2 l ∨ ∀ x ∈ l, x.2 ≠ a.2) : Grouped (insertFrom a b l) := by
  induction l generalizing b with
  | nil => simp [insertFrom, Grouped]
  | cons e rest ih =>
    obtain ⟨hrest, he⟩ := hl
    unfold insertFrom
    split
    · rename_i h
      refine ⟨⟨hrest, he⟩, ?_⟩
      intro x hx hxa
      rcases hb h.1 with hh | hh
      · obtain ⟨f, tl, hfl, hf⟩ := hh
        injection hfl with h1 h2
        subst h1; exact absurd hf h.2
      · exact absurd hxa (hh x hx)
    split
    · rename_i heq
      split
      · exact ⟨hrest, he⟩
      · refine ⟨ih true hrest ?_, ?_⟩
        · intro _
          by_cases hex : ∃ x ∈ rest, x.2 = a.2
          · obtain ⟨x, hx, hxa⟩ := hex
            left
            obtain ⟨f, tl, h1, h2⟩ := he x hx (by rw [hxa, heq])
            exact ⟨f, tl, h1, by rw [h2, heq]⟩
          · right; push Not at hex; exact hex
        · intro x hx hxe
          obtain ⟨f, tl, h1, h2⟩ := headIs_insertFrom_true a rest
          exact ⟨f, tl, h1, by rw [h2, heq]⟩
    · rename_i h1 h2
      have hb' : b = false := by
        cases b with
        | false => rfl
        | true => simp at h1; exact absurd h1 h2
      subst hb'
      refine ⟨ih false hrest (by simp), ?_⟩
      intro x hx hxe
      rw [mem_insertFrom] at hx
      rcases hx with rfl | hx
      · exact absurd hxe.symm h2
      · exact headIs_insertFrom_of_head a false rest e.2 h2 rfl (he x hx hxe)

theorem nodup_insertFrom (a : P × R) (b : Bool) (l : List (P × R)) (hn : l.Nodup) (hl : Grouped l)
    (hb : b = true → HeadIs a.2 l ∨ ∀ x ∈ l, x.2 ≠ a.2) : (insertFrom a b l).Nodup := by
  induction l generalizing b with
  | nil => simp [insertFrom]
  | cons e rest ih =>
    obtain ⟨hrest, he⟩ := hl
    have hn' := List.nodup_cons.1 hn
    unfold insertFrom
    split
    · rename_i h
      refine List.nodup_cons.2 ⟨?_, hn⟩
      intro hmem
      rcases hb h.1 with hh | hh
      · obtain ⟨f, tl, hfl, hf⟩ := hh
        injection hfl with h1 h2
        subst h1; exact absurd hf h.2
      · exact hh a hmem rfl
    split
    · rename_i heq
      split
      · exact hn
      · rename_i hne
        refine List.nodup_cons.2 ⟨?_, ih true hn'.2 hrest ?_⟩
        · rw [mem_insertFrom]
          rintro (h | h)
          · exact hne (by rw [h])
          · exact hn'.1 h
        · intro _
          by_cases hex : ∃ x ∈ rest, x.2 = a.2
          · obtain ⟨x, hx, hxa⟩ := hex
            left
            obtain ⟨f, tl, h1, h2⟩ := he x hx (by rw [hxa, heq])
            exact ⟨f, tl, h1, by rw [h2, heq]⟩
          · right; push Not at hex; exact hex
    · rename_i h1 h2
      have hb' : b = false := by
        cases b with
        | false => rfl
        | true => simp at h1; exact absurd h1 h2
      subst hb'
      refine List.nodup_cons.2 ⟨?_, ih false hn'.2 hrest (by simp)⟩
      rw [mem_insertFrom]
      rintro (h | h)
      · exact h2 (by rw [h])
      · exact hn'.1 h

/-- The pairs printed, block by block. -/
def printedPairs (blocks : List (List R × P)) : List (R × P) :=
  blocks.flatMap fun b => b.1.map fun r => (r, b.2)

omit [DecidableEq R] in
theorem printedPairs_printFrom (p : P) (rs : List R) (l : List (P × R)) :
    printedPairs (printFrom p rs l) = (rs.map fun r => (r, p)) ++ l.map Prod.swap := by
  induction l generalizing p rs with
  | nil => simp [printFrom, printedPairs]
  | cons e rest ih =>
    unfold printFrom
    split
    · have := ih e.1 [e.2]
      simp only [printedPairs, List.flatMap_cons] at this ⊢
      rw [this]; simp [Prod.swap]
    · rename_i h
      simp only [ne_eq, Decidable.not_not] at h
      rw [ih]; simp [Prod.swap, h]

omit [DecidableEq R] in
theorem printedPairs_print (l : List (P × R)) : printedPairs (print l) = l.map Prod.swap := by
  cases l with
  | nil => rfl
  | cons e rest => simp [print, printedPairs_printFrom, Prod.swap]

theorem run_inv (calls : List (R × P)) :
    (run calls).Nodup ∧ Grouped (run calls) ∧ ∀ x, x ∈ run calls ↔ (x.2, x.1) ∈ calls := by
  suffices h : ∀ l0 : List (P × R), l0.Nodup → Grouped l0 →
      (calls.foldl (fun l c => add l c.1 c.2) l0).Nodup ∧
      Grouped (calls.foldl (fun l c => add l c.1 c.2) l0) ∧
      ∀ x, x ∈ calls.foldl (fun l c => add l c.1 c.2) l0 ↔ x ∈ l0 ∨ (x.2, x.1) ∈ calls by
    have := h [] (by simp) (by simp [Grouped])
    simpa [run] using this
  induction calls with
  | nil => intro l0 h1 h2; simpa using ⟨h1, h2⟩
  | cons c rest ih =>
    intro l0 h1 h2
    have := ih (add l0 c.1 c.2) (nodup_insertFrom _ _ _ h1 h2 (by simp)) (grouped_insertFrom _ _ _ h2 (by simp))
    refine ⟨this.1, this.2.1, fun x => ?_⟩
    rw [List.foldl_cons, this.2.2 x, add, mem_insertFrom, List.mem_cons]
    constructor
    · rintro ((rfl | h) | h)
      · right; left; rfl
      · left; exact h
      · right; right; exact h
    · rintro (h | h | h)
      · left; right; exact h
      · left; left; rw [← h]
      · right; exact h

/-- For every history of calls, the printed list contains every cited (reason, paper) pair exactly once and
nothing else. Missing from the full property: one block per paper, and independence of the order. -/
theorem C17_pairs_partial (calls : List (R × P)) :
    (printedPairs (print (run calls))).Nodup ∧
    ∀ r p, (r, p) ∈ printedPairs (print (run calls)) ↔ (r, p) ∈ calls := by
  obtain ⟨h1, _, h3⟩ := run_inv calls
  rw [printedPairs_print]
  refine ⟨h1.map (fun a b h => by simpa [Prod.ext_iff, and_comm] using h), fun r p => ?_⟩
  rw [List.mem_map]
  constructor
  · rintro ⟨x, hx, he⟩
    have := (h3 x).1 hx
    rw [← he]; exact this
  · intro h
    exact ⟨(p, r), (h3 (p, r)).2 h, rfl⟩

/-- Two papers citing the same feature are kept adjacent (what the insertion actually groups by). -/
theorem C17_reason_contiguous_partial (calls : List (R × P)) : Grouped (run calls) := (run_inv calls).2.1

/-- When no paper is cited for more than one reason, every paper has exactly one block, for every order
of calls. -/
theorem C17_single_reason_partial (calls : List (R × P))
    (h1 : ∀ r r' p, (r, p) ∈ calls → (r', p) ∈ calls → r = r') :
    ((print (run calls)).map Prod.snd).Nodup ∧ 
    ∀ p, p ∈ (print (run calls)).map Prod.snd ↔ ∃ r, (r, p) ∈ calls := by
  obtain ⟨hn, _, hm⟩ := run_inv calls
  have hinj : ∀ x ∈ run calls, ∀ y ∈ run calls, x.1 = y.1 → x = y := by
    intro x hx y hy hxy
    refine Prod.ext hxy (h1 x.2 y.2 x.1 ((hm x).1 hx) ?_)
    rw [hxy]; exact (hm y).1 hy
  have hnd : ((run calls).map Prod.fst).Nodup := hn.map_on hinj
  have key : ∀ (l : List (P × R)) (p : P) (rs : List R), (p :: l.map Prod.fst).Nodup →
      (printFrom p rs l).map Prod.snd = p :: l.map Prod.fst := by
    intro l
    induction l with
    | nil => intros; rfl
    | cons e rest ih =>
      intro p rs h
      unfold printFrom
      have hne : e.1 ≠ p := by
        intro heq; simp [heq] at h
      rw [if_pos hne, List.map_cons, ih e.1 [e.2] (List.nodup_cons.1 h).2]
      rfl
  have hp : (print (run calls)).map Prod.snd = (run calls).map Prod.fst := by
    cases hr : run calls with
    | nil => rfl
    | cons e rest =>
      rw [hr] at hnd
      exact key rest e.1 [e.2] hnd
  rw [hp]
  refine ⟨hnd, fun p => ?_⟩
  rw [List.mem_map]
  constructor
  · rintro ⟨x, hx, rfl⟩; exact ⟨x.2, (hm x).1 hx⟩
  · rintro ⟨r, hr⟩; exact ⟨(p, r), (hm (p, r)).2 hr, rfl⟩

/-- The full property is false: reason 0 for paper 0, reason 1 for paper 1, reason 2 for paper 0 prints
paper 0 twice; and the same calls in another order print it once. -/
theorem C17_violation :
    (print (run [((0 : Nat), (0 : Nat)), (1, 1), (2, 0)])).map Prod.snd = [0, 1, 0] ∧
    (print (run [((0 : Nat), (0 : Nat)), (2, 0), (1, 1)])) = [([0, 2], 0), ([1], 1)] := by decide

example : print (run [((0 : Nat), (0 : Nat)), (1, 1), (0, 2), (0, 0), (1, 1)]) = [([0], 0), ([0], 2), ([1], 1)] := by
  decide
example : ∀ r r' p, (r, p) ∈ [((0 : Nat), (0 : Nat)), (1, 1), (0, 2)] → (r', p) ∈ [((0 : Nat), (0 : Nat)), (1, 1), (0, 2)] → r = r' := by
  simp; omega

end Jdftx.Cite
