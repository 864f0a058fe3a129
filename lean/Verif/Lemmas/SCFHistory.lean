import Verif.Spec.SCF
import Mathlib.Data.List.GetD
import Mathlib.Tactic.Ring
import Mathlib.Tactic.Linarith

/-!
# Lemmas for C107: blocks of equal length in a list
-/
namespace Jdftx.SCF
open Box ExCorr
noncomputable section

theorem flatMap_length {α β : Type} (f : α → List β) (c : ℕ) (L : List α) (h : ∀ x ∈ L, (f x).length = c) : (L.flatMap f).length = L.length * c := by
  induction L with
  | nil => simp
  | cons a L ih =>
    rw [List.flatMap_cons, List.length_append, h a List.mem_cons_self, ih fun x hx => h x (List.mem_cons_of_mem _ hx), List.length_cons]
    ring

theorem flatMap_drop {α β : Type} (f : α → List β) (c : ℕ) (L : List α) (h : ∀ x ∈ L, (f x).length = c) (i : ℕ) : (L.flatMap f).drop (i * c) = (L.drop i).flatMap f := by
  induction L generalizing i with
  | nil => simp
  | cons a L ih =>
    cases i with
    | zero => simp
    | succ i =>
      have ha := h a List.mem_cons_self
      rw [List.flatMap_cons, List.drop_succ_cons, ← ih (fun x hx => h x (List.mem_cons_of_mem _ hx)), show (i + 1) * c = (f a).length + i * c by rw [ha]; ring, List.drop_append, List.drop_eq_nil_of_le (Nat.le_add_right _ _), List.nil_append, Nat.add_sub_cancel_left]

theorem flatMap_getD {α β : Type} (f : α → List β) (c : ℕ) (L : List α) (h : ∀ x ∈ L, (f x).length = c) (i j : ℕ) (hi : i < L.length) (hj : j < c) (d : β) :
    (L.flatMap f).getD (i * c + j) d = (f L[i]).getD j d := by
  have h1 : (L.flatMap f).getD (i * c + j) d = ((L.flatMap f).drop (i * c)).getD j d := by
    simp only [List.getD_eq_getElem?_getD, List.getElem?_drop]
  rw [h1, flatMap_drop f c L h, List.drop_eq_getElem_cons hi, List.flatMap_cons]
  have hl : j < (f L[i]).length := by rw [h _ (List.getElem_mem hi)]; exact hj
  simp only [List.getD_eq_getElem?_getD, List.getElem?_append_left hl]

variable (g : Grid) (p : Params) {m : Mode} {nRho : ℕ}

theorem fieldData_length (x : Field) : (fieldData g x).length = nr g.S := by simp [fieldData]

theorem fieldData_getD (x : Field) (j : ℕ) (hj : j < nr g.S) : (fieldData g x).getD j 0 = x j := by
  simp [fieldData, List.getD_eq_getElem?_getD, hj]

theorem fields_length (x : Fin (nIn m) → Field) : ((List.finRange (nIn m)).flatMap fun s => fieldData g (x s)).length = nIn m * nr g.S := by
  rw [flatMap_length _ (nr g.S) _ fun s _ => fieldData_length g (x s), List.length_finRange]

theorem fields_getD (x : Fin (nIn m) → Field) (s : Fin (nIn m)) (j : ℕ) (hj : j < nr g.S) : ((List.finRange (nIn m)).flatMap fun s => fieldData g (x s)).getD (s * nr g.S + j) 0 = x s j := by
  rw [flatMap_getD _ (nr g.S) _ (fun s _ => fieldData_length g (x s)) s j (by simp) hj]
  rw [fieldData_getD g _ j hj]
  simp

theorem rho_length (x : Fin nRho → ℂ) : ((List.finRange nRho).flatMap fun i => [(x i).re, (x i).im]).length = 2 * nRho := by
  rw [flatMap_length _ 2 _ fun _ _ => rfl, List.length_finRange, mul_comm]

theorem rho_getD (x : Fin nRho → ℂ) (i : Fin nRho) : ((List.finRange nRho).flatMap fun i => [(x i).re, (x i).im]).getD (2 * i) 0 = (x i).re ∧
    ((List.finRange nRho).flatMap fun i => [(x i).re, (x i).im]).getD (2 * i + 1) 0 = (x i).im := by
  have h := fun j hj => flatMap_getD (fun i : Fin nRho => [(x i).re, (x i).im]) 2 (List.finRange nRho) (fun _ _ => rfl) i j (by simp) hj 0
  have h0 := h 0 (by norm_num)
  have h1 := h 1 (by norm_num)
  rw [mul_comm] at h0 h1
  constructor
  · rw [← add_zero (2 * (i : ℕ)), h0]; simp
  · rw [h1]; simp

theorem write_length (v : Var m nRho) : (writeVariable g p v).length = variableSize g p m nRho := by
  unfold writeVariable variableSize
  rw [List.length_append, List.length_append, fields_length]
  by_cases h1 : p.mixTau <;> by_cases h2 : p.hasU <;> simp only [h1, h2, if_true, if_false, Bool.false_eq_true, fields_length, rho_length, List.length_nil] <;> ring

/-- What is stored of a variable. -/
def stored (v : Var m nRho) : Var m nRho :=
  (fun s j => if j < nr g.S then v.1 s j else 0, if p.mixTau then fun s j => if j < nr g.S then v.2.1 s j else 0 else 0, if p.hasU then v.2.2 else 0)

theorem stored_same (v : Var m nRho) : Same g p (stored g p v) v := by
  refine ⟨fun s j hj => by simp [stored, hj], fun ht s j hj => by simp [stored, ht, hj], fun hu i => by simp [stored, hu]⟩

theorem getD_left {α : Type} (a b : List α) (i : ℕ) (d : α) (h : i < a.length) : (a ++ b).getD i d = a.getD i d := by
  simp only [List.getD_eq_getElem?_getD, List.getElem?_append_left h]

theorem getD_right {α : Type} (a b : List α) (i : ℕ) (d : α) : (a ++ b).getD (a.length + i) d = b.getD i d := by
  simp only [List.getD_eq_getElem?_getD, List.getElem?_append_right (Nat.le_add_right _ _), Nat.add_sub_cancel_left]

theorem block_lt {k N s j : ℕ} (hs : s < k) (hj : j < N) : s * N + j < k * N := by
  have : (s + 1) * N ≤ k * N := Nat.mul_le_mul_right N hs
  rw [add_mul, one_mul] at this
  omega

theorem read_write (v : Var m nRho) (rest : List ℝ) : readVariable g p m nRho (writeVariable g p v ++ rest) = stored g p v := by
  refine Prod.ext ?_ (Prod.ext ?_ ?_)
  · funext s j
    simp only [readVariable, stored]
    split
    · rename_i hj
      unfold writeVariable
      rw [List.append_assoc, List.append_assoc, getD_left, fields_getD g v.1 s j hj]
      rw [fields_length]
      exact block_lt s.2 hj
    · rfl
  · simp only [readVariable, stored]
    split
    · rename_i ht
      funext s j
      split
      · rename_i hj
        unfold writeVariable
        rw [if_pos ht, List.append_assoc, List.append_assoc, show nIn m * nr g.S + ↑s * nr g.S + j = ((List.finRange (nIn m)).flatMap fun s => fieldData g (v.1 s)).length + (s * nr g.S + j) by
          rw [fields_length]; ring, getD_right, getD_left, fields_getD g v.2.1 s j hj]
        rw [fields_length]
        exact block_lt s.2 hj
      · rfl
    · rfl
  · simp only [readVariable, stored]
    split
    · rename_i hu
      funext i
      have hoff : ∀ k, (writeVariable g p v ++ rest).getD ((if p.mixTau then 2 * (nIn m * nr g.S) else nIn m * nr g.S) + k) 0 = (((List.finRange nRho).flatMap fun i => [(v.2.2 i).re, (v.2.2 i).im]) ++ rest).getD k 0 := by
        intro k
        have hl : (((List.finRange (nIn m)).flatMap fun s => fieldData g (v.1 s)) ++ (if p.mixTau then (List.finRange (nIn m)).flatMap fun s => fieldData g (v.2.1 s) else [])).length =
            if p.mixTau then 2 * (nIn m * nr g.S) else nIn m * nr g.S := by
          rw [List.length_append, fields_length]
          split
          · rw [fields_length]; ring
          · simp
        rw [← hl]
        unfold writeVariable
        rw [if_pos hu, List.append_assoc (_ ++ _), getD_right]
      have hi : 2 * (i : ℕ) + 1 < ((List.finRange nRho).flatMap fun i => [(v.2.2 i).re, (v.2.2 i).im]).length := by
        rw [rho_length]
        have := i.2
        omega
      rw [add_assoc, hoff, hoff, getD_left _ _ _ _ (by omega), getD_left _ _ _ _ hi, (rho_getD v.2.2 i).1, (rho_getD v.2.2 i).2]
    · rfl

end
end Jdftx.SCF
