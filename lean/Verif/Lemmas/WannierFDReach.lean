import Verif.Lemmas.WannierFD
import Mathlib.Tactic.FieldSimp
import Mathlib.Tactic.Ring

/-! # Lemmas for the reach of the finite-difference formula of Wannier calculations -/
namespace Jdftx.WanFD
noncomputable section
open M3

/-- The box of offsets contains each mesh point no farther than the longest direction of the mask. -/
theorem dkMax_ge {K : M3.Mat ℝ} {mask : Fin 3 → Bool} {j : Fin 3} (h : mask j = true) : Basis.length (M3.column K j) ≤ dkMax K mask := by
  unfold dkMax
  fin_cases j <;> simp only [Fin.zero_eta, Fin.mk_one, Fin.reduceFinMk] at h ⊢ <;> simp [h] <;> split_ifs <;> simp

theorem recover {K : M3.Mat ℝ} (hd : det K ≠ 0) (n : V3 ℝ) (i : Fin 3) : n i = dot (M3.column (M3.transpose (inv3 K)) i) (mulMV K n) := by
  have hd' : det K * (1 / det K) = 1 := by field_simp
  have e : ∀ a : ℝ, a = a * (det K * (1 / det K)) := fun a => by rw [hd', mul_one]
  unfold inv3
  generalize hD : 1 / det K = D at *
  rw [e (n i)]
  fin_cases i <;> simp [dot, M3.column, M3.transpose, M3.smul, M3.adjugate, ofCols, vec, cross, M3.row, mulMV, det, box] <;> ring

theorem cauchy (u v : V3 ℝ) : |dot u v| ≤ Basis.length u * Basis.length v := by
  unfold Basis.length dot
  rw [← Real.sqrt_mul (by nlinarith [mul_self_nonneg (u 0), mul_self_nonneg (u 1), mul_self_nonneg (u 2)])]
  apply Real.abs_le_sqrt
  nlinarith [sq_nonneg (u 0 * v 1 - u 1 * v 0), sq_nonneg (u 0 * v 2 - u 2 * v 0), sq_nonneg (u 1 * v 2 - u 2 * v 1)]

theorem mem_offsets {K : M3.Mat ℝ} (hd : det K ≠ 0) {mask : Fin 3 → Bool} {n : V3 Int} (h0 : n ≠ 0) (hm : ∀ i, mask i = false → n i = 0) {j : Fin 3} (hj : mask j = true)
    (hl : Basis.length (mulMV K fun i => (n i : ℝ)) ≤ Basis.length (M3.column K j)) : n ∈ offsets K mask := by
  have key : ∀ i, -ikBound K mask i ≤ n i ∧ n i ≤ ikBound K mask i := by
    intro i
    unfold ikBound
    split_ifs with hi
    · have h1 : |(n i : ℝ)| ≤ dkMax K mask * Basis.length (M3.column (M3.transpose (inv3 K)) i) := by
        have := recover hd (fun i => (n i : ℝ)) i
        rw [this]
        refine le_trans (cauchy _ _) ?_
        rw [mul_comm]
        exact mul_le_mul_of_nonneg_right (le_trans hl (dkMax_ge hj)) (Real.sqrt_nonneg _)
      have h2 : ((|n i| : Int) : ℝ) ≤ ⌈dkMax K mask * Basis.length (M3.column (M3.transpose (inv3 K)) i)⌉ := by
        push_cast
        exact le_trans h1 (Int.le_ceil _)
      have h3 : |n i| ≤ ⌈dkMax K mask * Basis.length (M3.column (M3.transpose (inv3 K)) i)⌉ := by exact_mod_cast h2
      rw [abs_le] at h3
      omega
    · have := hm i (by simpa using hi)
      omega
  unfold offsets
  rw [List.mem_filter]
  constructor
  · simp only [List.mem_flatMap, List.mem_map]
    refine ⟨n 0, mem_sym (key 0).1 (key 0).2, n 1, mem_sym (key 1).1 (key 1).2, n 2, mem_sym (key 2).1 (key 2).2, ?_⟩
    funext i
    fin_cases i <;> rfl
  · simp only [decide_eq_true_eq]
    intro h
    apply h0
    have a0 := mul_self_nonneg (n 0)
    have a1 := mul_self_nonneg (n 1)
    have a2 := mul_self_nonneg (n 2)
    funext i
    fin_cases i
    · exact mul_self_eq_zero.1 (by show n 0 * n 0 = 0; omega)
    · exact mul_self_eq_zero.1 (by show n 1 * n 1 = 0; omega)
    · exact mul_self_eq_zero.1 (by show n 2 * n 2 = 0; omega)

/-- What is pruned is the opposite of the entry for which it is. -/
theorem prune_mem {tol : ℝ} {e f : ℝ × V3 ℝ} {l : List (ℝ × V3 ℝ)} (h : f ∈ l) : f ∈ prune tol e l ∨ CellMap.lenSq (f.2 + e.2) < tol ^ 2 := by
  induction l with
  | nil => simp at h
  | cons g l ih =>
    unfold prune
    rcases List.mem_cons.1 h with rfl | h
    · split_ifs with h1 h2
      · exact Or.inr h2
      · exact Or.inl (List.mem_cons_self ..)
      · exact Or.inl (List.mem_cons_self ..)
    · split_ifs with h1 h2
      · exact ih h
      · rcases ih h with h | h
        · exact Or.inl (List.mem_cons_of_mem _ h)
        · exact Or.inr h
      · exact Or.inl (List.mem_cons_of_mem _ h)

/-- Each entry is kept, or an opposite one that is not farther. -/
theorem dedup_mem {tol : ℝ} (l : List (ℝ × V3 ℝ)) (hs : l.Pairwise fun a b => a.1 ≤ b.1) {f : ℝ × V3 ℝ} (h : f ∈ l) :
    f ∈ dedup tol l ∨ ∃ e ∈ dedup tol l, e.1 ≤ f.1 ∧ CellMap.lenSq (f.2 + e.2) < tol ^ 2 := by
  induction hn : l.length using Nat.strong_induction_on generalizing l with
  | _ m ih =>
    cases l with
    | nil => simp at h
    | cons e l =>
      rw [dedup]
      rw [List.pairwise_cons] at hs
      rcases List.mem_cons.1 h with rfl | h
      · exact Or.inl (List.mem_cons_self ..)
      · rcases prune_mem (tol := tol) (e := e) h with h' | h'
        · have hl := prune_length tol e l
          rcases ih _ (by simp at hn; omega) (prune tol e l) (hs.2.sublist (prune_sublist tol e l)) h' rfl with h | ⟨g, hg, h⟩
          · exact Or.inl (List.mem_cons_of_mem _ h)
          · exact Or.inr ⟨g, List.mem_cons_of_mem _ hg, h⟩
        · exact Or.inr ⟨e, List.mem_cons_self .., hs.1 f h, h'⟩

/-- After a shell there is a gap. -/
theorem takeShell_gap {tol : ℝ} (l : List (ℝ × V3 ℝ)) : ∀ {p : ℝ}, ((∀ f ∈ l, p ≤ f.1) ∧ l.Pairwise fun a b => a.1 ≤ b.1) →
    ∀ g ∈ (takeShell tol p l).2, p + tol < g.1 ∧ ∀ f ∈ (takeShell tol p l).1, f.1 + tol < g.1 := by
  induction l with
  | nil => intro p _ g hg; simp [takeShell] at hg
  | cons f l ih =>
    intro p ⟨h1, h2⟩ g hg
    rw [List.pairwise_cons] at h2
    unfold takeShell at hg ⊢
    split_ifs at hg ⊢ with hp
    · refine ⟨?_, by simp⟩
      rcases List.mem_cons.1 hg with rfl | hg
      · exact hp
      · exact lt_of_lt_of_le hp (h2.1 g hg)
    · obtain ⟨h3, h4⟩ := ih ⟨h2.1, h2.2⟩ g hg
      have := h1 f (List.mem_cons_self ..)
      refine ⟨by linarith, fun f' hf' => ?_⟩
      rcases List.mem_cons.1 hf' with rfl | hf'
      · exact h3
      · exact h4 f' hf'

/-- Neighbours of a formula that is found are farther from those not used than the threshold. -/
theorem search_gap {tol : ℝ} {solve : Solver} {mask : Fin 3 → Bool} (l : List (ℝ × V3 ℝ)) (hs : l.Pairwise fun a b => a.1 ≤ b.1) :
    ∀ (b : List (V3 ℝ)) {r : List (V3 ℝ) × List ℝ}, search tol solve mask b l = .ok r →
    ∃ l1 l2, l = l1 ++ l2 ∧ r.1 = b ++ l1.map Prod.snd ∧ ∀ f ∈ l1, ∀ g ∈ l2, f.1 + tol < g.1 := by
  induction hn : l.length using Nat.strong_induction_on generalizing l with
  | _ n ih =>
    intro b r h
    cases l with
    | nil => simp [search] at h
    | cons e l =>
      rw [search] at h
      rw [List.pairwise_cons] at hs
      have hg := takeShell_gap (tol := tol) l (p := e.1) hs
      have ha := takeShell_append tol l e.1
      have hg' : ∀ f ∈ e :: (takeShell tol e.1 l).1, ∀ g ∈ (takeShell tol e.1 l).2, f.1 + tol < g.1 := by
        intro f hf g hgm
        rcases List.mem_cons.1 hf with rfl | hf
        · exact (hg g hgm).1
        · exact (hg g hgm).2 f hf
      split at h
      · injection h with h
        subst h
        exact ⟨e :: (takeShell tol e.1 l).1, (takeShell tol e.1 l).2, by rw [List.cons_append, ha], rfl, hg'⟩
      · have hl := takeShell_length tol l e.1
        have hs2 : (takeShell tol e.1 l).2.Pairwise fun a b => a.1 ≤ b.1 := by
          have := hs.2
          rw [← ha, List.pairwise_append] at this
          exact this.2.1
        obtain ⟨l1, l2, h1, h2, h3⟩ := ih _ (by simp at hn; omega) (takeShell tol e.1 l).2 hs2 rfl _ h
        refine ⟨(e :: (takeShell tol e.1 l).1) ++ l1, l2, ?_, ?_, ?_⟩
        · rw [List.append_assoc, ← h1, List.cons_append, ha]
        · rw [h2, List.map_append, List.append_assoc]
        · intro f hf g hgm
          rcases List.mem_append.1 hf with hf | hf
          · exact hg' f hf g (by rw [h1]; exact List.mem_append_right _ hgm)
          · exact h3 f hf g hgm

end
end Jdftx.WanFD
