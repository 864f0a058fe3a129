import Verif.Model.FileIO
import Verif.Spec.FileIO

namespace Jdftx.FileIO
open Jdftx.Spec
variable {β : Type}

theorem bind_ok {α γ : Type} (a : α) (f : α → Res γ) : ((Except.ok a : Res α) >>= f) = f a := rfl

/-- After swapping positions `i .. i+n-1` with their mirror images. -/
theorem swapLoop_spec (c : Nat) : ∀ (n i : Nat) (l : List β), l.length = c → 2 * (i + n) ≤ c →
    ∃ l', swapLoop c n i l = .ok l' ∧ l'.length = c ∧
      ∀ k, l'[k]? = if (i ≤ k ∧ k < i + n) ∨ (i ≤ c - 1 - k ∧ c - 1 - k < i + n ∧ k < c) then l[c-1-k]? else l[k]?
  | 0, i, l, hl, _ => by
    refine ⟨l, rfl, hl, ?_⟩
    intro k
    rw [if_neg (by omega)]
  | n+1, i, l, hl, hi => by
    have hi1 : i < l.length := by omega
    have hi2 : c - 1 - i < l.length := by omega
    have e1 : l[i]? = some l[i] := List.getElem?_eq_getElem hi1
    have e2 : l[c-1-i]? = some l[c-1-i] := List.getElem?_eq_getElem hi2
    obtain ⟨l', h1, h2, h3⟩ := swapLoop_spec c n (i+1) ((l.set i l[c-1-i]).set (c-1-i) l[i]) (by simp [hl]) (by omega)
    refine ⟨l', ?_, h2, ?_⟩
    · simp only [swapLoop, swapAt, e1, e2, bind_ok]; exact h1
    · intro k
      rw [h3 k]
      have hset : ∀ m, ((l.set i l[c-1-i]).set (c-1-i) l[i])[m]? =
          if m = c-1-i then l[i]? else if m = i then l[c-1-i]? else l[m]? := by
        intro m
        simp only [List.getElem?_set, List.length_set]
        grind
      rw [hset, hset]
      by_cases hk : k < c
      · by_cases hka : k = c-1-i
        · subst hka
          have : c - 1 - (c-1-i) = i := by omega
          rw [this]
          rw [if_neg (by omega), if_pos rfl, if_pos (by omega)]
        · by_cases hkb : k = i
          · subst hkb
            rw [if_neg (by omega), if_neg hka, if_pos rfl, if_pos (by omega)]
          · rw [if_neg (show ¬ (c-1-k = c-1-i) by omega), if_neg (show ¬ (c-1-k = i) by omega), if_neg hka, if_neg hkb]
            by_cases hc : (i+1 ≤ k ∧ k < i+1+n) ∨ (i+1 ≤ c-1-k ∧ c-1-k < i+1+n ∧ k < c)
            · rw [if_pos hc, if_pos (by omega)]
            · rw [if_neg hc, if_neg (by omega)]
      · rw [if_neg (by omega), if_neg (by omega), if_neg (by omega), if_neg (by omega)]

theorem swapLoop_reverse (c : Nat) (l : List β) (hl : l.length = c) :
    swapLoop c (c/2) 0 l = .ok l.reverse := by
  obtain ⟨l', h1, h2, h3⟩ := swapLoop_spec c (c/2) 0 l hl (by omega)
  rw [h1]
  congr 1
  apply List.ext_getElem?
  intro k
  rw [h3 k]
  by_cases hk : k < c
  · rw [List.getElem?_reverse (by omega), hl]
    split
    · rfl
    · have : c - 1 - k = k := by omega
      rw [this]
  · rw [if_neg (by omega), List.getElem?_eq_none (by omega), List.getElem?_eq_none (by simp; omega)]

theorem leBytes_nil (b : Bool) (c : Nat) : leBytes (β := β) b c [] = [] := by
  unfold leBytes; simp

theorem leBytes_true (c : Nat) (l : List β) : leBytes true c l = l := by
  unfold leBytes; simp

theorem leBytes_cons (c : Nat) (hc : 0 < c) (l : List β) (hl : l ≠ []) :
    leBytes false c l = (l.take c).reverse ++ leBytes false c (l.drop c) := by
  conv => lhs; unfold leBytes
  simp [hc, hl]

theorem leBytes_append (b : Bool) (c : Nat) (hc : 0 < c) : ∀ (n : Nat) (l m : List β), l.length = c * n →
    leBytes b c (l ++ m) = leBytes b c l ++ leBytes b c m := by
  cases b
  case true => intro n l m _; simp [leBytes_true]
  case false =>
  intro n
  induction n with
  | zero => intro l m hl; have := List.length_eq_zero_iff.mp (by simpa using hl); subst this; simp [leBytes_nil]
  | succ n ih =>
    intro l m hl
    have hlen : c ≤ l.length := by rw [hl, Nat.mul_succ]; omega
    have hl0 : l ≠ [] := by intro h; rw [h] at hlen; simp at hlen; omega
    rw [leBytes_cons c hc (l ++ m) (by simp [hl0]), leBytes_cons c hc l hl0]
    rw [List.take_append_of_le_length hlen, List.drop_append_of_le_length hlen]
    rw [ih (l.drop c) m (by simp [hl, Nat.mul_succ]), List.append_assoc]

theorem leBytes_length (b : Bool) (c : Nat) (hc : 0 < c) : ∀ (n : Nat) (l : List β), l.length = c * n →
    (leBytes b c l).length = l.length := by
  cases b
  case true => intro n l _; simp [leBytes_true]
  case false =>
  intro n
  induction n with
  | zero => intro l hl; have := List.length_eq_zero_iff.mp (by simpa using hl); subst this; simp [leBytes_nil]
  | succ n ih =>
    intro l hl
    have hlen : c ≤ l.length := by rw [hl, Nat.mul_succ]; omega
    have hl0 : l ≠ [] := by intro h; rw [h] at hlen; simp at hlen; omega
    rw [leBytes_cons c hc l hl0, List.length_append, ih (l.drop c) (by simp [hl, Nat.mul_succ])]
    simp; omega

theorem leBytes_invol (b : Bool) (c : Nat) (hc : 0 < c) : ∀ (n : Nat) (l : List β), l.length = c * n →
    leBytes b c (leBytes b c l) = l := by
  cases b
  case true => intro n l _; simp [leBytes_true]
  case false =>
  intro n
  induction n with
  | zero => intro l hl; have := List.length_eq_zero_iff.mp (by simpa using hl); subst this; simp [leBytes_nil]
  | succ n ih =>
    intro l hl
    have hlen : c ≤ l.length := by rw [hl, Nat.mul_succ]; omega
    have hl0 : l ≠ [] := by intro h; rw [h] at hlen; simp at hlen; omega
    have hr : (l.take c).reverse.length = c := by simp; omega
    have hr0 : (l.take c).reverse ≠ [] := by intro h; rw [h] at hr; simp at hr; omega
    rw [leBytes_cons c hc l hl0, leBytes_append false c hc 1 _ _ (by omega), ih _ (by simp [hl, Nat.mul_succ]),
      leBytes_cons c hc _ hr0, List.take_of_length_le (by omega), List.drop_of_length_le (by omega), leBytes_nil]
    simp

theorem chunkLoop_eq (c : Nat) (hc : 0 < c) : ∀ (n : Nat) (l : List β), l.length = c * n →
    chunkLoop c n l = .ok (leBytes false c l) := by
  intro n
  induction n with
  | zero => intro l hl; have := List.length_eq_zero_iff.mp (by simpa using hl); subst this; simp [chunkLoop, leBytes_nil]
  | succ n ih =>
    intro l hl
    have hlen : c ≤ l.length := by rw [hl, Nat.mul_succ]; omega
    have hl0 : l ≠ [] := by intro h; rw [h] at hlen; simp at hlen; omega
    unfold chunkLoop
    rw [swapLoop_reverse c (l.take c) (by simp; omega), ih (l.drop c) (by simp [hl, Nat.mul_succ]), leBytes_cons c hc l hl0]
    rfl

theorem wordSize_pos (size : Nat) : 0 < wordSize size := by unfold wordSize; split <;> omega

theorem supported_dvd {size : Nat} (h : Supported size) : wordSize size ∣ size := by
  unfold Supported at h
  unfold wordSize
  split
  · exact Nat.dvd_refl _
  · rcases h with h | h | h | h
    · omega
    · omega
    · omega
    · exact h.2

theorem supported_pos {size : Nat} (h : Supported size) : 0 < size := by
  unfold Supported at h; omega

theorem leBytes_one (b : Bool) : ∀ (l : List β), leBytes b 1 l = l := by
  cases b
  case true => intro l; exact leBytes_true 1 l
  case false =>
  intro l
  induction l with
  | nil => exact leBytes_nil _ _
  | cons a l ih => rw [leBytes_cons 1 (by omega) _ (by simp)]; simp [ih]

theorem convertToLE_eq (isLE : Bool) (size nmemb : Nat) (hs : Supported size) (l : List β)
    (hl : l.length = size * nmemb) :
    convertToLE isLE size nmemb l = .ok (leBytes isLE (wordSize size) l) := by
  unfold convertToLE
  cases isLE
  case true => simp [leBytes_true]
  case false =>
  simp only [Bool.false_or, beq_iff_eq, Bool.or_eq_true]
  unfold Supported at hs
  by_cases h1 : size = 1
  · subst h1; simp [wordSize, leBytes_one]
  · rw [if_neg h1]
    by_cases h2 : (size = 2 ∨ size = 4) ∨ size = 8
    · rw [if_pos h2]
      have : wordSize size = size := by
        unfold wordSize; split <;> omega
      rw [this]
      exact chunkLoop_eq size (by omega) nmemb l hl
    · rw [if_neg h2]
      have h8 : 8 ∣ size := by
        rcases hs with h | h | h | h
        · omega
        · omega
        · omega
        · exact h.2
      have hw : wordSize size = 8 := by unfold wordSize; split <;> omega
      rw [if_pos (Nat.mod_eq_zero_of_dvd h8), hw]
      apply chunkLoop_eq 8 (by omega)
      obtain ⟨k, rfl⟩ := h8
      rw [hl, Nat.mul_div_cancel_left k (by omega), Nat.mul_assoc, Nat.mul_comm k]

theorem size_mul_word {size : Nat} (hs : Supported size) (nmemb : Nat) :
    ∃ n, size * nmemb = wordSize size * n := by
  obtain ⟨k, hk⟩ := supported_dvd hs
  exact ⟨k * nmemb, by rw [← Nat.mul_assoc, ← hk]⟩

end Jdftx.FileIO
