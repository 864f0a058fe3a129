import Verif.Model.Converge
import Verif.Spec.Converge
import Mathlib.Data.List.Chain
import Mathlib.Algebra.Order.Ring.Rat
import Mathlib.Tactic.Linarith

/-!
# C38: convergence is declared exactly under the documented criterion
-/
namespace Jdftx.Conv

open Jdftx.Spec

variable {K : Type} [AddCommGroup K] [LinearOrder K]

theorem diffLoop_iff [IsOrderedAddMonoid K] (thr : K) (l : List K) :
    diffLoop thr l = true ↔ l.IsChain (fun a b => a - b ≤ thr) := by
  induction l with
  | nil => simp [diffLoop]
  | cons a l ih =>
    cases l with
    | nil => simp [diffLoop]
    | cons b l =>
      rw [List.isChain_cons_cons, ← ih]
      have e : diffLoop thr (a :: b :: l) = if b < a - thr then false else diffLoop thr (b :: l) := rfl
      rw [e]
      by_cases h : b < a - thr
      · simp only [h, if_true]
        constructor
        · intro h; simp at h
        · rintro ⟨h1, _⟩
          exact absurd (sub_le_comm.mp h1) (not_le.mpr h)
      · simp only [h, if_false]
        rw [not_lt] at h
        exact ⟨fun h' => ⟨sub_le_comm.mp h, h'⟩, fun h' => h'.2⟩

/-- The history held is the longest strictly decreasing tail of the calls, cut to `n+1` values. -/
structure Inv (n : Nat) (calls h : List K) : Prop where
  pos : 1 ≤ h.length
  le : h.length ≤ n + 1
  suffix : h = lastN h.length calls
  lenle : h.length ≤ calls.length
  chain : h.IsChain (fun a b => b < a)
  maximal : h.length = n + 1 ∨ h.length = calls.length ∨ ¬ (lastN (h.length + 1) calls).IsChain (fun a b => b < a)

theorem lastN_append_one {α : Type} (k : Nat) (l : List α) (x : α) : lastN (k+1) (l ++ [x]) = lastN k l ++ [x] := by
  unfold lastN
  rw [List.length_append, List.length_singleton, Nat.add_sub_add_right, List.drop_append_of_le_length (by omega)]

theorem lastN_tail {α : Type} (k : Nat) (l : List α) (h : k + 1 ≤ l.length) : (lastN (k+1) l).tail = lastN k l := by
  unfold lastN
  rw [List.tail_drop]; congr 1; omega

theorem lastN_suffix {α : Type} {j k : Nat} (h : j ≤ k) (l : List α) : lastN j l <:+ lastN k l := by
  unfold lastN
  exact List.drop_suffix_drop_left l (by omega)

theorem lastN_length {α : Type} (k : Nat) (l : List α) (h : k ≤ l.length) : (lastN k l).length = k := by
  unfold lastN; rw [List.length_drop]; omega

theorem chain_suffix {α : Type} {R : α → α → Prop} {a b : List α} (h : a <:+ b) (hb : b.IsChain R) : a.IsChain R := by
  obtain ⟨t, rfl⟩ := h
  exact (List.isChain_append.mp hb).2.1

/-- One call in the invariant: new invariant and the answer. -/
theorem step_inv [IsOrderedAddMonoid K] (n : Nat) (thr : K) (calls h : List K) (E : K) (H : Inv n calls h) :
    Inv n (calls ++ [E]) (ediffStep n thr h E).1 ∧
    ((ediffStep n thr h E).2 = true ↔
      (lastN 2 (calls ++ [E])).IsChain (fun a b => b < a) ∧ n + 1 ≤ (calls ++ [E]).length ∧
      (lastN (n+1) (calls ++ [E])).IsChain (fun a b => b < a ∧ a - b ≤ thr)) := by
  obtain ⟨back, hback⟩ : ∃ b, h.getLast? = some b := by
    cases hh : h.getLast? with
    | none => rw [List.getLast?_eq_none_iff] at hh; have := H.pos; simp [hh] at this
    | some b => exact ⟨b, rfl⟩
  have hlast : lastN 1 calls = [back] := by
    have h1 : lastN 1 h = [back] := by
      obtain ⟨t, rfl⟩ : ∃ t, h = t ++ [back] := ⟨h.dropLast, (List.dropLast_append_getLast? back hback).symm⟩
      simp [lastN]
    have h2 : lastN 1 calls = lastN 1 h := by
      rw [H.suffix]; unfold lastN
      rw [List.drop_drop, List.length_drop]
      have := H.pos; have := H.lenle
      congr 1; omega
    rw [h2, h1]
  have hl2 : lastN 2 (calls ++ [E]) = [back, E] := by rw [lastN_append_one, hlast]; rfl
  unfold ediffStep
  rw [hback]
  simp only [hl2]
  by_cases hE : back ≤ E
  · simp only [hE, if_true]
    constructor
    · refine ⟨by simp, by simp, ?_, by simp, by simp, ?_⟩
      · simp [lastN]
      · refine Or.inr (Or.inr ?_)
        show ¬ (lastN 2 (calls ++ [E])).IsChain _
        rw [hl2]; simpa using hE
    · constructor
      · intro h; simp at h
      · rintro ⟨h1, _⟩; simp at h1; exact absurd hE (not_le.mpr h1)
  · simp only [hE, if_false]
    have hE' : E < back := not_le.mp hE
    have hc2 : List.IsChain (fun a b : K => b < a) [back, E] := by simpa using hE'
    have hchain1 : (h ++ [E]).IsChain (fun a b => b < a) := by
      rw [List.isChain_append]
      refine ⟨H.chain, by simp, ?_⟩
      intro x hx y hy
      rw [hback] at hx
      simp at hx hy
      subst hx hy; exact hE'
    have hsuf1 : h ++ [E] = lastN (h.length + 1) (calls ++ [E]) := by
      rw [lastN_append_one, ← H.suffix]
    -- the list after discarding
    generalize hh2 : (if (h ++ [E]).length = n + 2 then (h ++ [E]).tail else h ++ [E]) = h2
    have hlen : (h ++ [E]).length = h.length + 1 := by simp
    have key : h2 = lastN h2.length (calls ++ [E]) ∧ h2.IsChain (fun a b => b < a) ∧ 1 ≤ h2.length ∧ h2.length ≤ n + 1 ∧
        (h2.length = n + 1 ∨ (h2.length = h.length + 1 ∧ h.length < n)) := by
      rw [hlen] at hh2
      by_cases hc : h.length + 1 = n + 2
      · rw [if_pos hc] at hh2
        subst hh2
        have ht : (h ++ [E]).tail.length = h.length := by simp
        refine ⟨?_, hchain1.tail, by rw [ht]; exact H.pos, by omega, Or.inl (by omega)⟩
        rw [ht, ← lastN_tail h.length (calls ++ [E]) (by have := H.lenle; simp; omega), ← hsuf1]
      · rw [if_neg hc] at hh2
        subst hh2
        have := H.le
        exact ⟨by rw [hlen]; exact hsuf1, hchain1, by omega, by omega, by omega⟩
    obtain ⟨k1, k2, k3, k4, k5⟩ := key
    have hml : h2.length ≤ (calls ++ [E]).length := by
      have := H.lenle; have := H.le
      rcases k5 with k5 | ⟨k5, _⟩
      · have : h2.length ≤ h.length + 1 := by
          rw [← hlen, ← hh2]; split <;> simp
        simp; omega
      · simp; omega
    have hmax : h2.length = n + 1 ∨ h2.length = (calls ++ [E]).length ∨
        ¬ (lastN (h2.length + 1) (calls ++ [E])).IsChain (fun a b => b < a) := by
      rcases k5 with k5 | ⟨k5, k6⟩
      · exact Or.inl k5
      · rcases H.maximal with m | m | m
        · omega
        · refine Or.inr (Or.inl ?_); rw [k5]; simp; omega
        · refine Or.inr (Or.inr ?_)
          rw [k5, lastN_append_one]
          intro hc
          exact m (List.isChain_append.mp hc).1
    by_cases hn : h2.length = n + 1
    · simp only [hn, if_true]
      refine ⟨⟨by omega, by omega, k1, hml, k2, hmax⟩, ?_⟩
      rw [diffLoop_iff, ← hn, ← k1]
      constructor
      · intro hd
        refine ⟨hc2, hml, ?_⟩
        rw [List.isChain_iff_getElem] at *
        intro i hi
        exact ⟨k2 i hi, hd i hi⟩
      · rintro ⟨_, _, hd⟩
        exact hd.imp (fun _ _ h => h.2)
    · simp only [hn, if_false]
      refine ⟨⟨k3, k4, k1, hml, k2, hmax⟩, ?_⟩
      constructor
      · intro h; simp at h
      · rintro ⟨_, hle, hch⟩
        rcases hmax with m | m | m
        · exact absurd m hn
        · omega
        · exfalso
          apply m
          refine chain_suffix (lastN_suffix (by omega) _) (hch.imp (fun _ _ h => h.1))

theorem hist_inv [IsOrderedAddMonoid K] (n : Nat) (thr : K) (calls : List K) (hne : calls ≠ []) :
    Inv n calls (ediffHist n thr calls) := by
  induction calls using List.reverseRecOn with
  | nil => exact absurd rfl hne
  | append_singleton calls E ih =>
    by_cases hc : calls = []
    · subst hc
      have : ediffHist n thr ([] ++ [E]) = [E] := by simp [ediffHist, ediffStep]
      rw [this]
      exact ⟨by simp, by simp, by simp [lastN], by simp, by simp, by simp⟩
    · have := (step_inv n |thr| calls _ E (ih hc)).1
      unfold ediffHist at this ⊢
      rw [List.foldl_append]
      exact this

theorem chain_iff_small (n : Nat) (thr : K) (l : List K) :
    (n + 1 ≤ l.length ∧ (lastN (n+1) l).IsChain (fun a b => b < a ∧ a - b ≤ thr)) ↔ SmallDecreases n thr l := by
  unfold SmallDecreases
  refine and_congr_right (fun hl => ?_)
  rw [List.isChain_iff_getElem]
  have hlen := lastN_length (n+1) l hl
  constructor
  · intro h i hi a b ha hb
    have h' := h i (by omega)
    rw [List.getElem?_eq_getElem (by omega)] at ha hb
    simp only [Option.some.injEq] at ha hb
    rw [ha, hb] at h'; exact h'
  · intro h i hi
    exact h i (by omega) _ _ (List.getElem?_eq_getElem (by omega)) (List.getElem?_eq_getElem (by omega))

/-- **C38 (energy).** For every sequence of calls: the check answers "converged" exactly if at least one call came
before, the last change is a decrease, and the last `n` changes are decreases of at most `|threshold|`. -/
theorem C38_ediff [IsOrderedAddMonoid K] (n : Nat) (thr : K) (calls : List K) (E : K) :
    ediffAnswer n thr calls E = true ↔
      (∃ prev, calls.getLast? = some prev ∧ E < prev) ∧ SmallDecreases n |thr| (calls ++ [E]) := by
  by_cases hne : calls = []
  · subst hne; simp [ediffAnswer, ediffHist, ediffStep]
  have hinv := hist_inv n thr calls hne
  have h := (step_inv n |thr| calls _ E hinv).2
  unfold ediffAnswer
  rw [h, chain_iff_small]
  refine and_congr_left (fun _ => ?_)
  obtain ⟨b, t, rfl⟩ : ∃ b t, calls = t ++ [b] := by
    rcases List.eq_nil_or_concat calls with h | ⟨t, b, h⟩
    · exact absurd h hne
    · exact ⟨b, t, by simpa using h⟩
  rw [lastN_append_one]
  have := lastN_append_one 0 t b
  simp at this
  rw [this]
  simp [lastN]

/-- **C38 (energy, positive window).** For `n ≥ 1` the criterion is the documented one alone: the last `n` changes are
decreases no larger than the threshold. -/
theorem C38_ediff_window [IsOrderedAddMonoid K] (n : Nat) (hn : 1 ≤ n) (thr : K) (calls : List K) (E : K) :
    ediffAnswer n thr calls E = true ↔ SmallDecreases n |thr| (calls ++ [E]) := by
  rw [C38_ediff]
  constructor
  · exact fun h => h.2
  · intro h
    refine ⟨?_, h⟩
    have hc := (chain_iff_small n |thr| (calls ++ [E])).mpr h
    have hs := chain_suffix (lastN_suffix (show 2 ≤ n + 1 by omega) (calls ++ [E])) hc.2
    rcases List.eq_nil_or_concat calls with h0 | ⟨t, b, h0⟩
    · subst h0; have := hc.1; simp at this; omega
    · rw [List.concat_eq_append] at h0
      subst h0
      rw [lastN_append_one] at hs
      have := lastN_append_one 0 t b
      simp at this
      rw [this] at hs
      exact ⟨b, by simp, by simpa [lastN] using (by simpa [lastN] using hs : E < b ∧ _).1⟩

/-- The window-0 behaviour: any decrease is accepted, whatever the threshold. -/
theorem C38_ediff_zero [IsOrderedAddMonoid K] (thr : K) (calls : List K) (E : K) :
    ediffAnswer 0 thr calls E = true ↔ ∃ prev, calls.getLast? = some prev ∧ E < prev := by
  rw [C38_ediff]
  simp [SmallDecreases]

/-- Four energies: with window 2 and threshold 1/10 the fourth call converges, the third does not. -/
example : ediffAnswer 2 (1/10 : Rat) [10, 5, 49/10] (97/20) = true ∧ ediffAnswer 2 (1/10 : Rat) [10, 5] (49/10) = false ∧
    ediffAnswer 2 (1/10 : Rat) [10, 5, 5, 49/10] (97/20) = true := by
  refine ⟨?_, ?_, ?_⟩ <;> simp [ediffAnswer, ediffHist, ediffStep] <;> norm_num [abs_of_pos] <;> decide +kernel

section norm

/-- The history held is that of the last `n` calls. -/
theorem norm_inv (n : Nat) (thr : K) (calls : List K) :
    normHist n thr calls = (lastN n calls).map (fun x => decide (|x| < |thr|)) := by
  induction calls using List.reverseRecOn with
  | nil => simp [normHist, lastN]
  | append_singleton calls E ih =>
    have e : normHist n thr (calls ++ [E]) = (normStep n |thr| (normHist n thr calls) E).1 := by
      simp [normHist]
    rw [e, ih]
    unfold normStep
    simp only
    have hm : List.map (fun x => decide (|x| < |thr|)) (lastN n calls) ++ [decide (|E| < |thr|)]
        = List.map (fun x => decide (|x| < |thr|)) (lastN (n+1) (calls ++ [E])) := by
      rw [lastN_append_one]; simp
    rw [hm]
    by_cases hl : n + 1 ≤ (calls ++ [E]).length
    · rw [if_pos (by rw [List.length_map, lastN_length _ _ hl]), ← List.map_tail, lastN_tail _ _ hl]
    · have h1 : lastN (n+1) (calls ++ [E]) = calls ++ [E] := by
        unfold lastN; rw [Nat.sub_eq_zero_of_le (by omega)]; rfl
      have h2 : lastN n (calls ++ [E]) = calls ++ [E] := by
        unfold lastN; rw [Nat.sub_eq_zero_of_le (by omega)]; rfl
      rw [h1, h2, if_neg (by rw [List.length_map]; omega)]

/-- **C38 (norm).** For every sequence of calls: the check answers "converged" exactly if the last `n` norms are below
the threshold in magnitude. -/
theorem C38_norm (n : Nat) (thr : K) (calls : List K) (x : K) :
    normAnswer n thr calls x = true ↔ SmallNorms n |thr| (calls ++ [x]) := by
  have h1 := norm_inv n thr (calls ++ [x])
  have e : normHist n thr (calls ++ [x]) = (normStep n |thr| (normHist n thr calls) x).1 := by simp [normHist]
  have e2 : normAnswer n thr calls x = if (normHist n thr (calls ++ [x])).length = n then (normHist n thr (calls ++ [x])).all id else false := by
    rw [e]; rfl
  rw [e2, h1]
  unfold SmallNorms
  by_cases hl : n ≤ (calls ++ [x]).length
  · rw [if_pos (by rw [List.length_map, lastN_length _ _ hl])]
    simp only [hl, true_and]
    simp
  · rw [if_neg]
    · simp only [hl, false_and]; simp
    · rw [List.length_map]; unfold lastN; rw [List.length_drop]; omega

example : normAnswer 2 (1/10 : Rat) [1, 1/20] (-1/20) = true ∧ normAnswer 2 (1/10 : Rat) [1/20, 1] (1/20) = false := by
  refine ⟨?_, ?_⟩ <;> simp [normAnswer, normHist, normStep] <;> norm_num [abs_of_pos, abs_of_neg]

end norm

end Jdftx.Conv
