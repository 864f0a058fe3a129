import Verif.Spec.Matrix
import Verif.Props.Thread
import Mathlib.Algebra.BigOperators.Intervals
import Mathlib.Algebra.BigOperators.Ring.Finset
import Mathlib.Data.List.Perm.Basic
import Mathlib.Data.List.Nodup
import Mathlib.Tactic.Ring
import Mathlib.Tactic.Linarith
import Mathlib.Tactic.LinearCombination

/-!
# Lemmas for C50-C52, C63
-/
namespace Jdftx.Mtx
variable {K : Type}

theorem lt_ceildiv (num den : Int) (hn : 0 < num) (hd : 0 < den) (a : Int) : a < ceildiv num den ↔ a * den < num := by
  unfold ceildiv
  rw [Int.tdiv_eq_ediv_of_nonneg (by omega), ← Int.add_one_le_iff, Int.le_ediv_iff_mul_le hd]
  constructor <;> intro h <;> nlinarith

theorem ceildiv_count (start step stop : Int) (h1 : start < stop) (h2 : 0 < step) : Count start step stop (ceildiv (stop - start) step) := by
  intro a _
  rw [lt_ceildiv _ _ (by omega) h2]
  omega

theorem ceildiv_pos (start step stop : Int) (h1 : start < stop) (h2 : 0 < step) : 0 < ceildiv (stop - start) step := by
  rw [lt_ceildiv _ _ (by omega) h2]; omega

theorem count_unique {start step stop c d : Int} (hc : Count start step stop c) (hd : Count start step stop d) (h1 : 0 ≤ c) (h2 : 0 ≤ d) : c = d := by
  rcases Int.lt_trichotomy c d with h | h | h
  · have := (hd c h1).1 h; have := (hc c h1).2 this; omega
  · exact h
  · have := (hc d h2).1 h; have := (hd d h2).2 this; omega

theorem mem_pairs {n m : Nat} {p : Nat × Nat} : p ∈ pairs n m ↔ p.1 < n ∧ p.2 < m := by
  unfold pairs
  simp only [List.mem_flatMap, List.mem_range, List.mem_map]
  constructor
  · rintro ⟨a, ha, b, hb, rfl⟩; exact ⟨ha, hb⟩
  · rintro ⟨ha, hb⟩; exact ⟨p.1, ha, p.2, hb, rfl⟩

theorem pairs_succ (n m : Nat) : pairs (n+1) m = pairs n m ++ (List.range m).map fun b => (n, b) := by
  simp [pairs, List.range_succ, List.flatMap_append]

theorem pairs_length (n m : Nat) : (pairs n m).length = n * m := by
  induction n with
  | zero => simp [pairs]
  | succ n ih => rw [pairs_succ, List.length_append, ih]; simp [Nat.add_mul]

theorem zipIdx_map_range (m n k : Nat) : ((List.range m).map fun b => (n, b)).zipIdx k = (List.range m).map fun b => ((n, b), k + b) := by
  apply List.ext_getElem
  · simp
  · intro i h1 h2; simp

theorem pairs_zipIdx (n m : Nat) : (pairs n m).zipIdx = (pairs n m).map fun p => (p, p.1 * m + p.2) := by
  induction n with
  | zero => simp [pairs]
  | succ n ih =>
    rw [pairs_succ, List.zipIdx_append, ih, zipIdx_map_range, List.map_append, pairs_length]
    simp [Function.comp_def]

theorem pairs_nodup (n m : Nat) : (pairs n m).Nodup := by
  induction n with
  | zero => simp [pairs]
  | succ n ih =>
    rw [pairs_succ, List.nodup_append]
    refine ⟨ih, List.Nodup.map (fun a b h => by simpa using h) List.nodup_range, ?_⟩
    intro a ha b hb h
    obtain ⟨c, _, rfl⟩ := List.mem_map.1 hb
    have := (mem_pairs.1 ha).1
    rw [h] at this
    simp at this

/-- Updates at distinct addresses. -/
theorem runUpd_nodup (l : List (Upd K)) (hn : (l.map Prod.fst).Nodup) (f : Int → K) :
    (∀ u ∈ l, runUpd l f u.1 = u.2 (f u.1)) ∧ ∀ x, x ∉ l.map Prod.fst → runUpd l f x = f x := by
  induction l generalizing f with
  | nil => exact ⟨by simp, fun x _ => rfl⟩
  | cons v l ih =>
    simp only [List.map_cons, List.nodup_cons] at hn
    obtain ⟨i1, i2⟩ := ih hn.2 (Function.update f v.1 (v.2 (f v.1)))
    have e : runUpd (v :: l) f = runUpd l (Function.update f v.1 (v.2 (f v.1))) := rfl
    rw [e]
    constructor
    · intro u hu
      rcases List.mem_cons.1 hu with rfl | hu
      · rw [i2 _ hn.1, Function.update_self]
      · rw [i1 u hu]
        have : u.1 ≠ v.1 := fun h => hn.1 (h ▸ List.mem_map.2 ⟨u, hu, rfl⟩)
        rw [Function.update_of_ne this]
    · intro x hx
      simp only [List.map_cons, List.mem_cons, not_or] at hx
      rw [i2 x hx.2, Function.update_of_ne hx.1]

theorem runUpd_map {ι : Type} (l : List ι) (hl : l.Nodup) (addr : ι → Int) (u : ι → K → K)
    (inj : ∀ p ∈ l, ∀ q ∈ l, addr p = addr q → p = q) (f : Int → K) :
    (∀ p ∈ l, runUpd (l.map fun p => (addr p, u p)) f (addr p) = u p (f (addr p))) ∧
    ∀ x, (∀ p ∈ l, x ≠ addr p) → runUpd (l.map fun p => (addr p, u p)) f x = f x := by
  have hn : ((l.map fun p => ((addr p, u p) : Upd K)).map Prod.fst).Nodup := by
    rw [List.map_map]
    exact List.Nodup.map_on (fun p hp q hq h => inj p hp q hq h) hl
  obtain ⟨h1, h2⟩ := runUpd_nodup _ hn f
  constructor
  · intro p hp
    exact h1 (addr p, u p) (List.mem_map.2 ⟨p, hp, rfl⟩)
  · intro x hx
    apply h2
    intro h
    simp only [List.map_map, List.mem_map, Function.comp] at h
    obtain ⟨p, hp, rfl⟩ := h
    exact hx p hp rfl

/-- Column-major addresses are injective. -/
theorem addr_inj {ld i j i' j' : Int} (h1 : 0 ≤ i) (h2 : i < ld) (h3 : 0 ≤ i') (h4 : i' < ld) (h : ld * j + i = ld * j' + i') :
    i = i' ∧ j = j' := by
  have hj : j = j' := by
    have e1 : (ld * j + i) / ld = j := by
      rw [Int.mul_add_ediv_left _ _ (by omega), Int.ediv_eq_zero_of_lt h1 h2, add_zero]
    have e2 : (ld * j' + i') / ld = j' := by
      rw [Int.mul_add_ediv_left _ _ (by omega), Int.ediv_eq_zero_of_lt h3 h4, add_zero]
    rw [← e1, ← e2, h]
  subst hj
  omega

theorem addr_has {nr nc i j : Int} (h1 : 0 ≤ i) (h2 : i < nr) (h3 : 0 ≤ j) (h4 : j < nc) : Buf.Has (nr * nc) (nr * j + i) := by
  constructor
  · have := Int.mul_nonneg (show 0 ≤ nr by omega) h3; omega
  · have : nr * (j + 1) ≤ nr * nc := Int.mul_le_mul_of_nonneg_left (by omega) (by omega)
    rw [Int.mul_add] at this; omega

theorem addr_exists {nr nc x : Int} (hr : 0 < nr) (hx : Buf.Has (nr * nc) x) : ∃ i j, 0 ≤ i ∧ i < nr ∧ 0 ≤ j ∧ j < nc ∧ x = nr * j + i :=
  ⟨x % nr, x / nr, Int.emod_nonneg _ (by omega), Int.emod_lt_of_pos _ hr, Int.ediv_nonneg hx.1 (by omega),
    Int.ediv_lt_of_lt_mul hr (by rw [Int.mul_comm]; exact hx.2), (Int.mul_ediv_add_emod x nr).symm⟩

end Jdftx.Mtx
