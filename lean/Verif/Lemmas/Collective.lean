import Verif.Model.Collective
import Verif.Lemmas.TaskDivision
import Verif.Lemmas.FileIO

namespace Jdftx.Coll
open Jdftx.Spec

/-! ### error check -/

def gState (msgs : List (List Char)) (j : Nat) : Gather :=
  { bufTot := (msgs.take j).flatten ++
      List.replicate ((msgs.map List.length).sum - (msgs.take j).flatten.length) ' '
    pos := (msgs.take j).flatten.length }

theorem flatten_take_le (msgs : List (List Char)) (j : Nat) :
    (msgs.take j).flatten.length ≤ (msgs.map List.length).sum := by
  rw [← List.length_flatten]
  have := congrArg (fun l => (List.flatten l).length) (List.take_append_drop j msgs)
  simp only [List.flatten_append, List.length_append] at this
  omega

theorem overwrite_gState (msgs : List (List Char)) (j : Nat) (hj : j < msgs.length) :
    overwrite (gState msgs j).bufTot (gState msgs j).pos msgs[j] = (gState msgs (j+1)).bufTot := by
  have hle := flatten_take_le msgs (j+1)
  have hsucc : (msgs.take (j+1)).flatten = (msgs.take j).flatten ++ msgs[j] := by
    rw [List.take_succ_eq_append_getElem hj, List.flatten_append, List.flatten_cons, List.flatten_nil, List.append_nil]
  unfold overwrite gState
  simp only
  rw [hsucc] at hle ⊢
  rw [List.take_left', List.drop_append, List.drop_replicate]
  · rw [List.drop_eq_nil_of_le (by omega)]
    simp only [List.nil_append, List.length_append] at hle ⊢
    congr 2
    omega
  · rfl

theorem gatherStep_gState (msgs : List (List Char)) (j : Nat) (hj : j < msgs.length) :
    gatherStep msgs (msgs.map fun _ => gState msgs j) j = msgs.map fun _ => gState msgs (j+1) := by
  have hle := flatten_take_le msgs (j+1)
  have hsucc : (msgs.take (j+1)).flatten = (msgs.take j).flatten ++ msgs[j] := by
    rw [List.take_succ_eq_append_getElem hj, List.flatten_append, List.flatten_cons, List.flatten_nil, List.append_nil]
  have hget : msgs.getD j [] = msgs[j] := by
    rw [List.getD_eq_getElem?_getD, List.getElem?_eq_getElem hj]; rfl
  have hpos : (gState msgs (j+1)).pos = (gState msgs j).pos + msgs[j].length := by
    unfold gState; simp only; rw [hsucc, List.length_append]
  have hdata : ((gState msgs (j+1)).bufTot.drop (gState msgs j).pos).take msgs[j].length = msgs[j] := by
    unfold gState
    simp only
    rw [hsucc, List.append_assoc, List.drop_left', List.take_left']
    · rfl
    · rfl
  have hself : overwrite (gState msgs (j+1)).bufTot (gState msgs j).pos msgs[j] = (gState msgs (j+1)).bufTot := by
    unfold overwrite gState
    simp only
    rw [hsucc]
    generalize (List.map List.length msgs).sum = T
    generalize (List.take j msgs).flatten = A
    generalize msgs[j] = B
    rw [← List.length_append, List.drop_left' rfl, List.append_assoc A B, List.take_left' rfl, List.append_assoc A B]
  unfold gatherStep
  simp only [hget]
  have hj2 : ((msgs.map fun _ => gState msgs j).mapIdx fun i g =>
      if i = j then { g with bufTot := overwrite g.bufTot g.pos msgs[j] } else g)[j]? =
        some ⟨(gState msgs (j+1)).bufTot, (gState msgs j).pos⟩ := by
    simp [hj, overwrite_gState msgs j hj]
  rw [hj2]
  simp only [hdata]
  apply List.ext_getElem?
  intro k
  simp only [List.getElem?_map, List.getElem?_mapIdx, Option.map_map]
  rcases hk : msgs[k]? with _ | m
  · simp
  · simp only [Option.map_some, Function.comp]
    congr 1
    by_cases hkj : k = j
    · simp only [hkj, if_true]
      rw [overwrite_gState msgs j hj, hself, ← hpos]
    · simp only [if_neg hkj]
      rw [overwrite_gState msgs j hj, ← hpos]

theorem gather_fold (msgs : List (List Char)) : ∀ j, j ≤ msgs.length →
    (List.range j).foldl (gatherStep msgs) (msgs.map fun _ => gState msgs 0) =
      msgs.map fun _ => gState msgs j := by
  intro j
  induction j with
  | zero => intro _; rfl
  | succ j ih =>
    intro hj
    rw [List.range_succ, List.foldl_append, ih (by omega)]
    simp only [List.foldl_cons, List.foldl_nil]
    exact gatherStep_gState msgs j (by omega)

/-! ### state files -/

variable {β : Type}

theorem seekOffset_eq {a r c : Nat} (so : Nat) (h : a * r * c ≤ FileIO.INT_MAX) (h2 : a * r ≤ FileIO.INT_MAX) :
    seekOffset a r c so = .ok (a * (r * c * so)) := by
  unfold seekOffset intMul
  rw [if_pos h2]
  simp only [FileIO.bind_ok]
  rw [if_pos h]
  simp only [FileIO.bind_ok]
  rw [Nat.mul_assoc, Nat.mul_assoc, ← Nat.mul_assoc r]
  rfl

theorem rangeStop_eq (N P p : Nat) (h : p < P) : rangeStop N P p = ((p+1)*N)/P := by
  unfold rangeStop; rw [TaskDiv.init_eq N P p h]

structure WInv (M : Nat → List β) (N L P : Nat) (s : WState β) : Prop where
  cur : ∀ p, p < P → (s.wr p).cursor = (s.wr p).next * L
  ge : ∀ p, p < P → (p * N)/P ≤ (s.wr p).next
  le : ∀ p, p < P → (s.wr p).next ≤ ((p+1) * N)/P
  mem : ∀ p, p < P → ∀ q, (p*N)/P ≤ q → q < ((p+1)*N)/P → ∀ k, k < L →
    s.file.content (q*L+k) = if q < (s.wr p).next then (M q)[k]? else none
  out : ∀ i, N * L ≤ i → s.file.content i = none
  size_le : s.file.size ≤ N * L
  size_ge : ∀ p, p < P → (p*N)/P < (s.wr p).next → (s.wr p).next * L ≤ s.file.size

theorem write_block {f : File β} {q L : Nat} {d : List β} (hd : d.length = L) (i : Nat) :
    (f.write (q*L) d).content i = if q*L ≤ i ∧ i < q*L + L then d[i - q*L]? else f.content i := by
  unfold File.write
  split
  · rename_i h; subst h; simp at hd; subst hd; simp
  · simp [hd]

theorem write_size {f : File β} {q L : Nat} {d : List β} (hd : d.length = L) :
    (f.write (q*L) d).size = if L = 0 then f.size else max f.size ((q+1)*L) := by
  unfold File.write
  rw [Nat.succ_mul]
  split
  · rename_i h; subst h; simp at hd; simp [← hd]
  · rename_i h; rw [if_neg]
    · simp [hd]
    · intro h0; rw [h0] at hd; exact h (List.length_eq_zero_iff.mp hd)

theorem block_inj {q q' k L : Nat} (hk : k < L) (h1 : q*L ≤ q'*L+k) (h2 : q'*L+k < q*L+L) : q' = q := by
  have hL : 0 < L := by omega
  rcases Nat.lt_trichotomy q' q with h | h | h
  · have := Nat.mul_le_mul_right L (show q'+1 ≤ q from h); rw [Nat.succ_mul] at this; omega
  · exact h
  · have := Nat.mul_le_mul_right L (show q+1 ≤ q' from h); rw [Nat.succ_mul] at this; omega

theorem stop_le (N P p : Nat) (h : p < P) : ((p+1)*N)/P ≤ N := by
  calc ((p+1)*N)/P ≤ (P*N)/P := Nat.div_le_div_right (Nat.mul_le_mul_right _ h)
    _ = N := Nat.mul_div_cancel_left N (by omega)

theorem writeStep_inv (M : Nat → List β) (N L P : Nat) (hM : ∀ q, q < N → (M q).length = L)
    (s : WState β) (p : Nat) (h : WInv M N L P s) : WInv M N L P (writeStep M N P s p) := by
  unfold writeStep
  split
  case isFalse => exact h
  case isTrue hp =>
  rw [rangeStop_eq N P p hp]
  split
  case isFalse => exact h
  case isTrue hlt =>
  obtain ⟨hcur, hge, hle, hmem, hout, hsl, hsg⟩ := h
  have hqN : (s.wr p).next < N := Nat.lt_of_lt_of_le hlt (stop_le N P p hp)
  have hd := hM _ hqN
  have hc := hcur p hp
  refine ⟨?_, ?_, ?_, ?_, ?_, ?_, ?_⟩
  · intro u hu
    rcases eq_or_ne u p with rfl | hne
    · simp only [Function.update_self, hd, hc]; rw [Nat.succ_mul]
    · simpa only [Function.update_of_ne hne] using hcur u hu
  · intro u hu
    rcases eq_or_ne u p with rfl | hne
    · simp only [Function.update_self]; have := hge u hu; omega
    · simpa only [Function.update_of_ne hne] using hge u hu
  · intro u hu
    rcases eq_or_ne u p with rfl | hne
    · simp only [Function.update_self]; omega
    · simpa only [Function.update_of_ne hne] using hle u hu
  · intro u hu q hq1 hq2 k hk
    simp only [hc]
    rw [write_block hd]
    by_cases hqq : q = (s.wr p).next
    · subst hqq
      have hup : u = p := by
        rcases Nat.lt_trichotomy u p with h | h | h
        · have := Nat.div_le_div_right (c := P) (Nat.mul_le_mul_right N (show u+1 ≤ p from h))
          have := hge p hp; omega
        · exact h
        · have := Nat.div_le_div_right (c := P) (Nat.mul_le_mul_right N (show p+1 ≤ u from h)); omega
      subst hup
      rw [if_pos (by omega)]
      simp only [Function.update_self, Nat.lt_succ_self, if_true]
      congr 1; omega
    · have hnot : ¬ ((s.wr p).next*L ≤ q*L+k ∧ q*L+k < (s.wr p).next*L + L) :=
        fun hh => hqq (block_inj hk hh.1 hh.2)
      rw [if_neg hnot, hmem u hu q hq1 hq2 k hk]
      rcases eq_or_ne u p with rfl | hne
      · simp only [Function.update_self]
        have : (q < (s.wr u).next) ↔ (q < (s.wr u).next + 1) := by omega
        simp only [this]
      · simp only [Function.update_of_ne hne]
  · intro i hi
    simp only [hc]
    rw [write_block hd, if_neg, hout i hi]
    have := Nat.mul_le_mul_right L (show (s.wr p).next+1 ≤ N from hqN)
    rw [Nat.succ_mul] at this
    omega
  · simp only [hc]
    rw [write_size hd]
    split
    · exact hsl
    · exact Nat.max_le.mpr ⟨hsl, Nat.mul_le_mul_right L hqN⟩
  · intro u hu hgt
    simp only [hc] at hgt ⊢
    rw [write_size hd]
    rcases eq_or_ne u p with rfl | hne
    · simp only [Function.update_self]
      split
      · rename_i h0; simp [h0]
      · exact Nat.le_max_right _ _
    · simp only [Function.update_of_ne hne] at hgt ⊢
      have := hsg u hu hgt
      split
      · exact this
      · exact Nat.le_trans this (Nat.le_max_left _ _)

end Jdftx.Coll
