import Verif.Spec.WannierFD
import Verif.Lemmas.Mat3
import Verif.Lemmas.Res
import Mathlib.LinearAlgebra.Matrix.NonsingularInverse
import Mathlib.LinearAlgebra.Matrix.ToLinearEquiv
import Mathlib.Analysis.Complex.Norm
import Mathlib.Algebra.BigOperators.Group.List.Basic
import Mathlib.Tactic.NormNum
import Mathlib.Tactic.Linarith
import Mathlib.Tactic.FinCases

/-! # Lemmas for the finite-difference formula of Wannier calculations -/
namespace Jdftx.WanFD
noncomputable section
open M3 Finset

/-! ## Weights for given neighbours -/

theorem shellsFrom_length (tol : ℝ) (l : List (V3 ℝ)) : ∀ p s, (shellsFrom tol p s l).length = l.length := by
  induction l with
  | nil => intro _ _; rfl
  | cons v l ih => intro p s; simp [shellsFrom, ih]

theorem shells_length (tol : ℝ) (b : List (V3 ℝ)) : (shells tol b).length = b.length := by
  cases b with
  | nil => rfl
  | cons v l => simp [shells, shellsFrom_length]

theorem shellsFrom_le (tol : ℝ) (l : List (V3 ℝ)) : ∀ p s, s ≤ (shellsFrom tol p s l).getLastD s ∧ ∀ x ∈ shellsFrom tol p s l, x ≤ (shellsFrom tol p s l).getLastD s := by
  induction l with
  | nil => intro _ _; simp [shellsFrom]
  | cons v l ih =>
    intro p s
    simp only [shellsFrom]
    have hle : s ≤ (if Basis.length v > p + tol then s + 1 else s) := by split_ifs <;> omega
    generalize (if Basis.length v > p + tol then s + 1 else s) = s' at hle ⊢
    rw [List.getLastD_cons]
    obtain ⟨h1, h2⟩ := ih (Basis.length v) s'
    refine ⟨le_trans hle h1, fun x hx => ?_⟩
    rcases List.mem_cons.1 hx with rfl | hx
    · exact h1
    · exact h2 x hx

theorem shells_lt (tol : ℝ) (b : List (V3 ℝ)) : ∀ x ∈ shells tol b, x < nShells tol b := by
  intro x hx
  unfold nShells
  cases b with
  | nil => simp [shells] at hx
  | cons v l =>
    have h := shellsFrom_le tol l (Basis.length v) 0
    simp only [shells, List.mem_cons] at hx
    have hg : (shells tol (v :: l)).getLastD 0 = (shellsFrom tol (Basis.length v) 0 l).getLastD 0 := List.getLastD_cons
    rw [hg]
    rcases hx with rfl | hx
    · omega
    · have := h.2 x hx
      omega

theorem exchange (l : List (V3 ℝ × ℕ)) (n : ℕ) (hl : ∀ p ∈ l, p.2 < n) (i k : Fin 3) (f : ℕ → ℂ) :
    ∑ s ∈ range n, (((l.map fun p => if p.2 = s then p.1 i * p.1 k else 0).sum : ℝ) : ℂ) * f s = (l.map fun p => ((p.1 i * p.1 k : ℝ) : ℂ) * f p.2).sum := by
  induction l with
  | nil => simp
  | cons p l ih =>
    simp only [List.map_cons, List.sum_cons]
    rw [← ih fun q hq => hl q (List.mem_cons_of_mem _ hq)]
    simp only [Complex.ofReal_add, add_mul, Finset.sum_add_distrib]
    congr 1
    have hp := hl p (List.mem_cons_self ..)
    rw [Finset.sum_eq_single p.2]
    · simp
    · intro s _ hs
      rw [if_neg (Ne.symm hs)]
      simp
    · intro h
      exact absurd (Finset.mem_range.2 hp) h

theorem re_list_sum (l : List ℂ) : l.sum.re = (l.map Complex.re).sum := by
  induction l with
  | nil => rfl
  | cons a l ih => simp [ih]

theorem eqn_index : ∀ (mask : Fin 3 → Bool) (i k : Fin 3), mask i = true → mask k = true →
    ∃ e < (eqns mask).length, ((eqns mask).getD e (0, 0) = (i, k) ∨ (eqns mask).getD e (0, 0) = (k, i)) ∧ (e < (([0, 1, 2] : List (Fin 3)).filter mask).length ↔ i = k) := by
  decide +kernel

theorem zip_map_right' (b : List (V3 ℝ)) (l : List ℕ) (f : ℕ → ℝ) (x y : Fin 3) :
    ((b.zip (l.map f)).map fun p => p.2 * (p.1 x * p.1 y)).sum = ((b.zip l).map fun p => f p.2 * (p.1 x * p.1 y)).sum := by
  induction b generalizing l with
  | nil => simp
  | cons v b ih =>
    cases l with
    | nil => simp
    | cons a l => simp [ih]

/-- A set of weights that passed the check solves the equations up to the threshold, whatever the solver does. -/
theorem weights_sound {tol : ℝ} {solve : Solver} {b : List (V3 ℝ)} {mask : Fin 3 → Bool} {w : List ℝ} (h : weights tol solve b mask = some w) :
    w.length = b.length ∧ ∀ i k, mask i = true → mask k = true → |moment b w i k - if i = k then 1 else 0| ≤ tol := by
  unfold weights at h
  split_ifs at h with hr
  simp only [Option.some.injEq] at h
  subst h
  refine ⟨by simp [shells_length], fun i k hi hk => ?_⟩
  obtain ⟨e, he, hp, hd⟩ := eqn_index mask i k hi hk
  rw [not_lt] at hr
  set z : ℕ → ℂ := fun e => (∑ s ∈ range (nShells tol b), (lhs tol b mask e s : ℂ) * wShells tol solve b mask s) - (rhs mask e : ℂ) with hz
  have h1 : Complex.normSq (z e) ≤ tol ^ 2 := by
    have h2 : Complex.normSq (z e) ≤ ∑ e ∈ range (eqns mask).length, Complex.normSq (z e) :=
      Finset.single_le_sum (f := fun e => Complex.normSq (z e)) (fun _ _ => Complex.normSq_nonneg _) (Finset.mem_range.2 he)
    have h3 : ∑ e ∈ range (eqns mask).length, Complex.normSq (z e) ≤ tol ^ 2 := by
      have h4 : 0 ≤ ∑ e ∈ range (eqns mask).length, Complex.normSq (z e) := Finset.sum_nonneg fun _ _ => Complex.normSq_nonneg _
      have h5 : residual tol solve b mask = Real.sqrt (∑ e ∈ range (eqns mask).length, Complex.normSq (z e)) := rfl
      rw [h5] at hr
      have h6 := Real.sqrt_nonneg (∑ e ∈ range (eqns mask).length, Complex.normSq (z e))
      calc _ = Real.sqrt (∑ e ∈ range (eqns mask).length, Complex.normSq (z e)) ^ 2 := (Real.sq_sqrt h4).symm
        _ ≤ tol ^ 2 := by gcongr
    linarith
  have ht : 0 ≤ tol := le_trans (Real.sqrt_nonneg _) hr
  have h2 : |(z e).re| ≤ tol := by
    refine le_trans (Complex.abs_re_le_norm _) ?_
    rw [← abs_of_nonneg (norm_nonneg (z e)), ← abs_of_nonneg ht]
    apply sq_le_sq.1
    rwa [Complex.sq_norm]
  have h3 : (z e).re = moment b ((shells tol b).map fun s => (wShells tol solve b mask s).re) i k - if i = k then 1 else 0 := by
    rw [hz]
    simp only [Complex.sub_re, Complex.ofReal_re]
    congr 1
    · unfold lhs
      rw [exchange (b.zip (shells tol b)) _ (fun p hp => shells_lt tol b _ (List.of_mem_zip hp).2)]
      unfold moment
      rw [zip_map_right', re_list_sum, List.map_map]
      congr 1
      refine List.map_congr_left fun p _ => ?_
      simp only [Function.comp_apply, Complex.re_ofReal_mul]
      rcases hp with h | h <;> rw [h] <;> ring
    · unfold rhs
      by_cases hik : i = k
      · rw [if_pos (hd.2 hik), if_pos hik]
      · rw [if_neg (fun hh => hik (hd.1 hh)), if_neg hik]
  rw [← h3]
  exact h2

/-! ## Neighbours -/

theorem sym_mem {n x : Int} (h : x ∈ sym n) : -n ≤ x ∧ x ≤ n := by
  unfold sym at h
  simp only [List.mem_map, List.mem_range] at h
  obtain ⟨i, hi, rfl⟩ := h
  omega

theorem mem_sym {n x : Int} (h1 : -n ≤ x) (h2 : x ≤ n) : x ∈ sym n := by
  unfold sym
  simp only [List.mem_map, List.mem_range]
  exact ⟨(x + n).toNat, by omega, by omega⟩

theorem ikBound_unmasked {K : M3.Mat ℝ} {mask : Fin 3 → Bool} {i : Fin 3} (h : mask i = false) : ikBound K mask i = 0 := by
  unfold ikBound
  simp [h]

theorem offsets_mem {K : M3.Mat ℝ} {mask : Fin 3 → Bool} {n : V3 Int} (h : n ∈ offsets K mask) : n ≠ 0 ∧ ∀ i, mask i = false → n i = 0 := by
  unfold offsets at h
  rw [List.mem_filter] at h
  obtain ⟨h1, h2⟩ := h
  constructor
  · rintro rfl
    simp at h2
  · intro i hi
    simp only [List.mem_flatMap, List.mem_map] at h1
    obtain ⟨x, hx, y, hy, z, hz, rfl⟩ := h1
    have hb := ikBound_unmasked (K := K) hi
    have bx := sym_mem hx
    have bY := sym_mem hy
    have bz := sym_mem hz
    fin_cases i
    · show x = 0
      simp only [Fin.zero_eta] at hb
      omega
    · show y = 0
      simp only [Fin.mk_one] at hb
      omega
    · show z = 0
      have hb : ikBound K mask 2 = 0 := hb
      omega

theorem mem_insertM {k : ℝ} {v : V3 ℝ} {l : List (ℝ × V3 ℝ)} {e : ℝ × V3 ℝ} : e ∈ insertM k v l ↔ e = (k, v) ∨ e ∈ l := by
  induction l with
  | nil => simp [insertM]
  | cons f l ih =>
    unfold insertM
    split_ifs
    · simp
    · simp only [List.mem_cons, ih]
      tauto

theorem insertM_sorted {k : ℝ} {v : V3 ℝ} {l : List (ℝ × V3 ℝ)} (h : l.Pairwise fun a b => a.1 ≤ b.1) : (insertM k v l).Pairwise fun a b => a.1 ≤ b.1 := by
  induction l with
  | nil => simp [insertM]
  | cons f l ih =>
    unfold insertM
    rw [List.pairwise_cons] at h
    split_ifs with hk
    · rw [List.pairwise_cons]
      refine ⟨?_, List.pairwise_cons.2 h⟩
      intro e he
      rcases List.mem_cons.1 he with rfl | he
      · exact le_of_lt hk
      · exact le_trans (le_of_lt hk) (h.1 e he)
    · rw [List.pairwise_cons]
      refine ⟨?_, ih h.2⟩
      intro e he
      rcases mem_insertM.1 he with rfl | he
      · exact not_lt.1 hk
      · exact h.1 e he

/-- Entries of the map: their keys, their order, and what they stand for. -/
theorem dkMap_spec (K : M3.Mat ℝ) (mask : Fin 3 → Bool) :
    ((dkMap K mask).Pairwise fun a b => a.1 ≤ b.1) ∧ ∀ e, e ∈ dkMap K mask ↔ ∃ n ∈ offsets K mask, e = (CellMap.lenSq (mulMV K fun i => (n i : ℝ)), mulMV K fun i => (n i : ℝ)) := by
  unfold dkMap
  generalize offsets K mask = o
  have : ∀ (o : List (V3 Int)) (l : List (ℝ × V3 ℝ)), (l.Pairwise fun a b => a.1 ≤ b.1) →
      ((o.foldl (fun l v => let dk := mulMV K fun i => (v i : ℝ); insertM (CellMap.lenSq dk) dk l) l).Pairwise fun a b => a.1 ≤ b.1) ∧
      ∀ e, e ∈ o.foldl (fun l v => let dk := mulMV K fun i => (v i : ℝ); insertM (CellMap.lenSq dk) dk l) l ↔
        e ∈ l ∨ ∃ n ∈ o, e = (CellMap.lenSq (mulMV K fun i => (n i : ℝ)), mulMV K fun i => (n i : ℝ)) := by
    intro o
    induction o with
    | nil => intro l hl; simp [hl]
    | cons n o ih =>
      intro l hl
      simp only [List.foldl_cons]
      obtain ⟨h1, h2⟩ := ih _ (insertM_sorted (k := CellMap.lenSq (mulMV K fun i => (n i : ℝ))) (v := mulMV K fun i => (n i : ℝ)) hl)
      refine ⟨h1, fun e => ?_⟩
      rw [h2 e, mem_insertM]
      simp only [List.mem_cons, exists_eq_or_imp]
      tauto
  obtain ⟨h1, h2⟩ := this o [] List.Pairwise.nil
  refine ⟨h1, fun e => ?_⟩
  rw [h2 e]
  simp

theorem prune_sublist (tol : ℝ) (e : ℝ × V3 ℝ) (l : List (ℝ × V3 ℝ)) : (prune tol e l).Sublist l := by
  induction l with
  | nil => simp [prune]
  | cons f l ih =>
    unfold prune
    split_ifs
    · exact ih.cons f
    · exact ih.cons_cons f
    · exact List.Sublist.refl _

theorem dedup_sublist (tol : ℝ) (l : List (ℝ × V3 ℝ)) : (dedup tol l).Sublist l := by
  induction hn : l.length using Nat.strong_induction_on generalizing l with
  | _ n ih =>
    cases l with
    | nil => simp [dedup]
    | cons e l =>
      rw [dedup]
      have hp := prune_sublist tol e l
      have := hp.length_le
      refine List.Sublist.cons_cons e ((ih _ ?_ _ rfl).trans hp)
      simp at hn
      omega

theorem prune_opp {tol : ℝ} (ht : 0 < tol) {e : ℝ × V3 ℝ} {l : List (ℝ × V3 ℝ)} (hs : l.Pairwise fun a b => a.1 ≤ b.1) (hk : ∀ f ∈ l, f.1 = CellMap.lenSq f.2)
    (he : e.1 = CellMap.lenSq e.2) : ∀ f ∈ prune tol e l, f.2 + e.2 ≠ 0 := by
  induction l with
  | nil => simp [prune]
  | cons f l ih =>
    rw [List.pairwise_cons] at hs
    have ih := ih hs.2 fun g hg => hk g (List.mem_cons_of_mem _ hg)
    unfold prune
    split_ifs with h1 h2
    · exact ih
    · intro g hg
      rcases List.mem_cons.1 hg with rfl | hg
      · intro h0
        apply h2
        rw [h0]
        simp [CellMap.lenSq]
        positivity
      · exact ih g hg
    · intro g hg h0
      have hge : f.1 ≤ g.1 := by
        rcases List.mem_cons.1 hg with rfl | hg
        · exact le_rfl
        · exact hs.1 g hg
      have : g.1 = e.1 := by
        rw [hk g hg, he, eq_neg_of_add_eq_zero_left h0]
        simp [CellMap.lenSq]
      rw [not_lt] at h1
      linarith

theorem dedup_opp {tol : ℝ} (ht : 0 < tol) (l : List (ℝ × V3 ℝ)) (hs : l.Pairwise fun a b => a.1 ≤ b.1) (hk : ∀ f ∈ l, f.1 = CellMap.lenSq f.2) :
    (dedup tol l).Pairwise fun a b => a.2 + b.2 ≠ 0 := by
  induction hn : l.length using Nat.strong_induction_on generalizing l with
  | _ n ih =>
    cases l with
    | nil => simp [dedup]
    | cons e l =>
      rw [dedup, List.pairwise_cons]
      have hp := prune_sublist tol e l
      have hl := hp.length_le
      rw [List.pairwise_cons] at hs
      constructor
      · intro f hf
        rw [add_comm]
        exact prune_opp ht hs.2 (fun g hg => hk g (List.mem_cons_of_mem _ hg)) (hk e (List.mem_cons_self ..)) f ((dedup_sublist tol _).subset hf)
      · refine ih _ ?_ _ (hs.2.sublist hp) (fun g hg => hk g (List.mem_cons_of_mem _ (hp.subset hg))) rfl
        simp at hn
        omega

theorem takeShell_append (tol : ℝ) (l : List (ℝ × V3 ℝ)) : ∀ p, (takeShell tol p l).1 ++ (takeShell tol p l).2 = l := by
  induction l with
  | nil => intro _; simp [takeShell]
  | cons f l ih =>
    intro p
    unfold takeShell
    split_ifs
    · simp
    · simp [ih f.1]

/-- A formula that is found consists of the first neighbours of the list, with weights that passed the check. -/
theorem search_ok {tol : ℝ} {solve : Solver} {mask : Fin 3 → Bool} (l : List (ℝ × V3 ℝ)) : ∀ (b : List (V3 ℝ)) {r : List (V3 ℝ) × List ℝ}, search tol solve mask b l = .ok r →
    (∃ l1 l2, l = l1 ++ l2 ∧ r.1 = b ++ l1.map Prod.snd) ∧ weights tol solve r.1 mask = some r.2 := by
  induction hn : l.length using Nat.strong_induction_on generalizing l with
  | _ n ih =>
    intro b r h
    cases l with
    | nil => simp [search] at h
    | cons e l =>
      rw [search] at h
      split at h
      · rename_i w hw
        injection h with h
        subst h
        refine ⟨⟨e :: (takeShell tol e.1 l).1, (takeShell tol e.1 l).2, ?_, rfl⟩, hw⟩
        rw [List.cons_append, takeShell_append]
      · have hl := takeShell_length tol l e.1
        obtain ⟨⟨l1, l2, h1, h2⟩, h3⟩ := ih _ (by simp at hn; omega) (takeShell tol e.1 l).2 rfl _ h
        refine ⟨⟨(e :: (takeShell tol e.1 l).1) ++ l1, l2, ?_, ?_⟩, h3⟩
        · rw [List.append_assoc, ← h1, List.cons_append, takeShell_append]
        · rw [h2, List.map_append, List.append_assoc]

/-- The search either finds a formula or ends the program. -/
theorem search_die {tol : ℝ} {solve : Solver} {mask : Fin 3 → Bool} (l : List (ℝ × V3 ℝ)) : ∀ (b : List (V3 ℝ)), (∃ r, search tol solve mask b l = .ok r) ∨ search tol solve mask b l = .error .die := by
  induction hn : l.length using Nat.strong_induction_on generalizing l with
  | _ n ih =>
    intro b
    cases l with
    | nil => right; rw [search]
    | cons e l =>
      rw [search]
      split
      · exact Or.inl ⟨_, rfl⟩
      · have hl := takeShell_length tol l e.1
        exact ih _ (by simp at hn; omega) (takeShell tol e.1 l).2 rfl _

/-- A formula for one mask. -/
structure FormulaOK (tol : ℝ) (K : M3.Mat ℝ) (mask : Fin 3 → Bool) (b : List (V3 ℝ)) (w : List ℝ) : Prop where
  mesh : ∀ v ∈ b, ∃ n : V3 Int, n ≠ 0 ∧ (∀ i, mask i = false → n i = 0) ∧ v = mulMV K fun i => (n i : ℝ)
  length : w.length = b.length
  opposite : b.Pairwise fun u v => u + v ≠ 0
  sound : ∀ i k, mask i = true → mask k = true → |moment b w i k - if i = k then 1 else 0| ≤ tol

theorem formula_ok {tol : ℝ} (ht : 0 < tol) {solve : Solver} {K : M3.Mat ℝ} {mask : Fin 3 → Bool} {r : List (V3 ℝ) × List ℝ} (h : formula tol solve K mask = .ok r) :
    FormulaOK tol K mask r.1 r.2 := by
  unfold formula at h
  obtain ⟨⟨l1, l2, h1, h2⟩, h3⟩ := search_ok _ _ h
  rw [List.nil_append] at h2
  obtain ⟨hs, hm⟩ := dkMap_spec K mask
  obtain ⟨h4, h5⟩ := weights_sound h3
  have hsub := dedup_sublist tol (dkMap K mask)
  have hk : ∀ f ∈ dkMap K mask, f.1 = CellMap.lenSq f.2 := by
    intro f hf
    obtain ⟨n, _, rfl⟩ := (hm f).1 hf
    rfl
  refine ⟨?_, h4, ?_, h5⟩
  · intro v hv
    rw [h2] at hv
    obtain ⟨e, he, rfl⟩ := List.mem_map.1 hv
    have : e ∈ dkMap K mask := hsub.subset (by rw [h1]; exact List.mem_append_left _ he)
    obtain ⟨n, hn, rfl⟩ := (hm e).1 this
    obtain ⟨g1, g2⟩ := offsets_mem hn
    exact ⟨n, g1, g2, rfl⟩
  · rw [h2, List.pairwise_map]
    have := dedup_opp ht _ hs hk
    rw [h1, List.pairwise_append] at this
    exact this.1

theorem formula_die {tol : ℝ} {solve : Solver} {K : M3.Mat ℝ} {mask : Fin 3 → Bool} : (∃ r, formula tol solve K mask = .ok r) ∨ formula tol solve K mask = .error .die := search_die _ _

theorem moment_append {b b' : List (V3 ℝ)} {w w' : List ℝ} (h : w.length = b.length) (x y : Fin 3) : moment (b ++ b') (w ++ w') x y = moment b w x y + moment b' w' x y := by
  unfold moment
  rw [List.zip_append h.symm, List.map_append, List.sum_append]

theorem moment_zero {b : List (V3 ℝ)} {w : List ℝ} {x y : Fin 3} (h : ∀ v ∈ b, v x = 0 ∨ v y = 0) : moment b w x y = 0 := by
  unfold moment
  refine List.sum_eq_zero fun r hr => ?_
  obtain ⟨p, hp, rfl⟩ := List.mem_map.1 hr
  rcases h p.1 (List.of_mem_zip hp).1 with h | h <;> rw [h] <;> ring

theorem moment_congr {b : List (V3 ℝ)} {w : List ℝ} {x y x' y' : Fin 3} (h : ∀ v ∈ b, v x * v y = v x' * v y') : moment b w x y = moment b w x' y' := by
  unfold moment
  congr 1
  refine List.map_congr_left fun p hp => ?_
  rw [h p.1 (List.of_mem_zip hp).1]

/-! ## A single direction -/

theorem search_first {tol : ℝ} {solve : Solver} {mask : Fin 3 → Bool} {l : List (ℝ × V3 ℝ)} (hl : l ≠ [])
    (h : ∀ v : V3 ℝ, ∀ b : List (V3 ℝ), v ∈ l.map Prod.snd → (weights tol solve (v :: b) mask).isSome) : ∃ r, search tol solve mask [] l = .ok r := by
  cases l with
  | nil => exact absurd rfl hl
  | cons e l =>
    rw [search]
    have := h e.2 ((takeShell tol e.1 l).1.map Prod.snd) (by simp)
    obtain ⟨w, hw⟩ := Option.isSome_iff_exists.1 this
    simp only [List.nil_append, List.map_cons]
    rw [hw]
    exact ⟨_, rfl⟩

theorem eqns_single : ∀ i : Fin 3, eqns (fun j => decide (i = j)) = [(i, i)] ∧ (([0, 1, 2] : List (Fin 3)).filter fun j => decide (i = j)).length = 1 := by decide

theorem weights_single {tol : ℝ} (ht : 0 < tol) {solve : Solver} (hs : Exact solve) (i : Fin 3) (v : V3 ℝ) (b : List (V3 ℝ)) (hv : v i ≠ 0) :
    (weights tol solve (v :: b) (fun j => decide (i = j))).isSome := by
  obtain ⟨e1, e2⟩ := eqns_single i
  have hn : 0 < nShells tol (v :: b) := by unfold nShells; omega
  have hL : 0 < lhs tol (v :: b) (fun j => decide (i = j)) 0 0 := by
    unfold lhs
    rw [e1]
    simp only [shells, List.zip_cons_cons, List.map_cons, List.sum_cons, if_true, List.getD_cons_zero]
    have h1 : 0 < v i * v i := mul_self_pos.2 hv
    have h2 : 0 ≤ ((b.zip (shellsFrom tol (Basis.length v) 0 b)).map fun p => if p.2 = 0 then p.1 i * p.1 i else 0).sum := by
      refine List.sum_nonneg fun x hx => ?_
      obtain ⟨p, _, rfl⟩ := List.mem_map.1 hx
      split_ifs
      · exact mul_self_nonneg _
      · exact le_rfl
    linarith
  have h0 := hs (lhs tol (v :: b) (fun j => decide (i = j))) 1 (nShells tol (v :: b)) (rhs fun j => decide (i = j))
    ⟨fun s => if s = 0 then 1 / lhs tol (v :: b) (fun j => decide (i = j)) 0 0 else 0, by
      intro e he
      obtain rfl : e = 0 := by omega
      rw [Finset.sum_eq_single 0]
      · beta_reduce
        rw [if_pos rfl]
        unfold rhs
        rw [e2]
        simp only [Nat.lt_one_iff, if_true]
        field_simp
      · intro s _ hs
        beta_reduce
        rw [if_neg hs, mul_zero]
      · intro h
        exact absurd (Finset.mem_range.2 hn) h⟩ 0 (by omega)
  have hr : residual tol solve (v :: b) (fun j => decide (i = j)) = 0 := by
    unfold residual wShells
    rw [e1]
    simp only [List.length_singleton, Finset.sum_range_one]
    rw [h0, sub_self]
    simp
  unfold weights
  rw [hr, if_neg (by linarith)]
  rfl

theorem formula_single {tol : ℝ} (ht : 0 < tol) {solve : Solver} (hs : Exact solve) {K : M3.Mat ℝ} {i : Fin 3} (hK : K i i ≠ 0) : ∃ r, formula tol solve K (fun j => decide (i = j)) = .ok r := by
  unfold formula
  obtain ⟨_, hm⟩ := dkMap_spec K (fun j => decide (i = j))
  refine search_first ?_ ?_
  · -- the map is not empty
    have hne : dkMap K (fun j => decide (i = j)) ≠ [] := by
      intro h0
      have hb : 2 ≤ ikBound K (fun j => decide (i = j)) i := by
        unfold ikBound
        simp
      have hz : ∀ j, 0 ≤ ikBound K (fun j => decide (i = j)) j := by
        intro j
        unfold ikBound
        split_ifs
        · exact le_trans (by norm_num) (le_max_left _ _)
        · exact le_rfl
      have hin : ((fun j => if i = j then 1 else 0) : V3 Int) ∈ offsets K (fun j => decide (i = j)) := by
        unfold offsets
        rw [List.mem_filter]
        constructor
        · simp only [List.mem_flatMap, List.mem_map]
          have hc : ∀ j : Fin 3, (if i = j then (1 : Int) else 0) ∈ sym (ikBound K (fun j => decide (i = j)) j) := by
            intro j
            by_cases hij : i = j
            · rw [if_pos hij, ← hij]
              exact mem_sym (by omega) (by omega)
            · rw [if_neg hij]
              have := hz j
              exact mem_sym (by omega) (by omega)
          refine ⟨_, hc 0, _, hc 1, _, hc 2, ?_⟩
          funext j
          fin_cases j <;> rfl
        · fin_cases i <;> simp
      have := (hm _).2 ⟨_, hin, rfl⟩
      rw [h0] at this
      simp at this
    intro h0
    cases hd : dkMap K (fun j => decide (i = j)) with
    | nil => exact hne hd
    | cons e l =>
      rw [hd, dedup] at h0
      simp at h0
  · intro v b hv
    obtain ⟨e, he, rfl⟩ := List.mem_map.1 hv
    obtain ⟨n, hn, rfl⟩ := (hm e).1 ((dedup_sublist tol _).subset he)
    obtain ⟨g1, g2⟩ := offsets_mem hn
    refine weights_single ht hs i _ b ?_
    have hj : ∀ j, j ≠ i → n j = 0 := fun j hj => g2 j (by simp [Ne.symm hj])
    have hi : n i ≠ 0 := by
      intro h0
      apply g1
      funext j
      by_cases h : j = i
      · rw [h]; exact h0
      · exact hj j h
    have : mulMV K (fun j => (n j : ℝ)) i = K i i * n i := by
      unfold mulMV
      fin_cases i
      · simp [hj 1 (by decide), hj 2 (by decide)]
      · simp [hj 0 (by decide), hj 2 (by decide)]
      · simp [hj 0 (by decide), hj 1 (by decide)]
    simp only []
    rw [this]
    exact mul_ne_zero hK (by exact_mod_cast hi)

/-! ## The loop over directions -/

theorem maskOf_comm (tol : ℝ) (K : M3.Mat ℝ) (i j : Fin 3) : maskOf tol K i j = maskOf tol K j i := by
  unfold maskOf
  rw [show dot (M3.column K i) (M3.column K j) = dot (M3.column K j) (M3.column K i) by unfold dot; ring]

/-- State of the loop over directions. -/
structure Inv (tol : ℝ) (K : M3.Mat ℝ) (st : (Fin 3 → Bool) × List (V3 ℝ) × List ℝ) : Prop where
  closed : ∀ x y, st.1 x = true → maskOf tol K x y = true → st.1 y = true
  supp : ∀ v ∈ st.2.1, ∀ x, st.1 x = false → v x = 0
  mom : ∀ x y, |moment st.2.1 st.2.2 x y - if st.1 x = true ∧ x = y then 1 else 0| ≤ tol
  nb : Neighbours K st.2.1 st.2.2

theorem mulMV_inj {K : M3.Mat ℝ} (hd : det K ≠ 0) {n : V3 ℝ} (h : mulMV K n = 0) : n = 0 := by
  rw [mulMV_eq] at h
  exact Matrix.eq_zero_of_mulVec_eq_zero (by rwa [← det_eq]) h

theorem inv_start {tol : ℝ} (ht : 0 < tol) (K : M3.Mat ℝ) : Inv tol K (fun _ => false, [], []) := by
  refine ⟨by simp, by simp, ?_, ⟨by simp, rfl, List.Pairwise.nil⟩⟩
  intro x y
  simp [moment]
  exact ht.le

theorem inv_step {tol : ℝ} (ht : 0 < tol) {solve : Solver} {K : M3.Mat ℝ} (ha : Aligned tol K) (hd : det K ≠ 0) {st st' : (Fin 3 → Bool) × List (V3 ℝ) × List ℝ} {i : Fin 3} (h : Inv tol K st)
    (hs : dirStep tol solve K st i = .ok st') : Inv tol K st' ∧ st'.1 i = true ∧ ∀ x, st.1 x = true → st'.1 x = true := by
  unfold dirStep at hs
  split_ifs at hs with hi
  · injection hs with hs
    subst hs
    exact ⟨h, hi, fun _ h => h⟩
  · have hi : st.1 i = false := by simpa using hi
    cases hf : formula tol solve K (maskOf tol K i) with
    | error e => rw [hf] at hs; simp [Res.bind_error] at hs
    | ok r =>
      rw [hf] at hs
      simp only [Res.bind_ok] at hs
      injection hs with hs
      subst hs
      obtain ⟨f1, f2, f3, f4⟩ := formula_ok ht hf
      set m := maskOf tol K i with hm
      have hsym : ∀ x y, maskOf tol K x y = true → maskOf tol K y x = true := fun x y hxy => by rw [maskOf_comm]; exact hxy
      have hdis : ∀ x, m x = true → st.1 x = false := by
        intro x hx
        by_contra hc
        have hc : st.1 x = true := by simpa using hc
        have := h.closed x i hc (hsym _ _ hx)
        rw [hi] at this
        exact absurd this (by decide)
      have hsupp : ∀ v ∈ r.1, ∀ x, m x = false → v x = 0 := by
        intro v hv x hx
        obtain ⟨n, _, hn2, rfl⟩ := f1 v hv
        have hz : ∀ j, K x j * (n j : ℝ) = 0 := by
          intro j
          by_cases hj : m j = true
          · have : maskOf tol K x j = false := by
              by_contra hc
              have hc : maskOf tol K x j = true := by simpa using hc
              have := ha.trans i j x hj (hsym _ _ hc)
              rw [← hm, hx] at this
              exact absurd this (by decide)
            rw [ha.cart x j this, zero_mul]
          · rw [hn2 j (by simpa using hj)]
            simp
        show ((0 + K x 0 * (n 0 : ℝ)) + K x 1 * (n 1 : ℝ)) + K x 2 * (n 2 : ℝ) = 0
        rw [hz 0, hz 1, hz 2]
        ring
      have hcl : ∀ x y, (st.1 x || m x) = true → maskOf tol K x y = true → (st.1 y || m y) = true := by
        intro x y hx hxy
        rw [Bool.or_eq_true] at hx ⊢
        rcases hx with hx | hx
        · exact Or.inl (h.closed x y hx hxy)
        · exact Or.inr (ha.trans i x y hx hxy)
      refine ⟨⟨hcl, ?_, ?_, ⟨?_, ?_, ?_⟩⟩, ?_, ?_⟩
      · intro v hv x hx
        simp only [Bool.or_eq_false_iff] at hx
        rcases List.mem_append.1 hv with hv | hv
        · exact h.supp v hv x hx.1
        · exact hsupp v hv x hx.2
      · intro x y
        show |moment (st.2.1 ++ r.1) (st.2.2 ++ r.2) x y - if (st.1 x || m x) = true ∧ x = y then 1 else 0| ≤ tol
        rw [moment_append h.nb.length]
        by_cases hx : m x = true
        · have ho : moment st.2.1 st.2.2 x y = 0 := moment_zero fun v hv => Or.inl (h.supp v hv x (hdis x hx))
          rw [ho, zero_add]
          by_cases hy : m y = true
          · simpa [hx] using f4 x y hx hy
          · have hn : moment r.1 r.2 x y = 0 := moment_zero fun v hv => Or.inr (hsupp v hv y (by simpa using hy))
            have hne : x ≠ y := fun hh => hy (hh ▸ hx)
            rw [hn, if_neg (fun hh => hne hh.2)]
            simpa using ht.le
        · have hx' : m x = false := by simpa using hx
          have hn : moment r.1 r.2 x y = 0 := moment_zero fun v hv => Or.inl (hsupp v hv x hx')
          rw [hn, add_zero, hx', Bool.or_false]
          exact h.mom x y
      · intro v hv
        rcases List.mem_append.1 hv with hv | hv
        · exact h.nb.mesh v hv
        · obtain ⟨n, h1, _, h3⟩ := f1 v hv
          exact ⟨n, h1, h3⟩
      · show (st.2.2 ++ r.2).length = (st.2.1 ++ r.1).length
        rw [List.length_append, List.length_append, h.nb.length, f2]
      · show (st.2.1 ++ r.1).Pairwise fun u v => u + v ≠ 0
        rw [List.pairwise_append]
        refine ⟨h.nb.opposite, f3, fun u hu v hv h0 => ?_⟩
        have hv0 : v = 0 := by
          funext x
          by_cases hx : m x = true
          · have h1 := congrFun h0 x
            have h2 := h.supp u hu x (hdis x hx)
            simp only [Pi.add_apply, h2, zero_add] at h1
            exact h1
          · exact hsupp v hv x (by simpa using hx)
        obtain ⟨n, h1, _, h3⟩ := f1 v hv
        rw [hv0] at h3
        have := mulMV_inj hd h3.symm
        apply h1
        funext j
        have : (n j : ℝ) = 0 := congrFun this j
        exact_mod_cast this
      · show (st.1 i || m i) = true
        rw [hm, ha.refl i, Bool.or_true]
      · intro x hx
        show (st.1 x || m x) = true
        rw [hx, Bool.true_or]

theorem setup_steps {tol : ℝ} {solve : Solver} {K : M3.Mat ℝ} {r : List (V3 ℝ) × List ℝ} (h : setup tol solve K = .ok r) :
    ∃ s0 s1 s2, dirStep tol solve K (fun _ => false, [], []) 0 = .ok s0 ∧ dirStep tol solve K s0 1 = .ok s1 ∧ dirStep tol solve K s1 2 = .ok s2 ∧ r = s2.2 := by
  unfold setup at h
  cases h0 : dirStep tol solve K (fun _ => false, [], []) 0 with
  | error e => rw [h0] at h; simp [Res.bind_error] at h
  | ok s0 =>
    rw [h0, Res.bind_ok] at h
    cases h1 : dirStep tol solve K s0 1 with
    | error e => rw [h1] at h; simp [Res.bind_error] at h
    | ok s1 =>
      rw [h1, Res.bind_ok] at h
      cases h2 : dirStep tol solve K s1 2 with
      | error e => rw [h2] at h; simp [Res.bind_error] at h
      | ok s2 =>
        rw [h2, Res.bind_ok] at h
        injection h with h
        exact ⟨s0, s1, s2, rfl, h1, h2, h.symm⟩

theorem dirStep_die (tol : ℝ) (solve : Solver) (K : M3.Mat ℝ) (st : (Fin 3 → Bool) × List (V3 ℝ) × List ℝ) (i : Fin 3) : (∃ st', dirStep tol solve K st i = .ok st') ∨ dirStep tol solve K st i = .error .die := by
  unfold dirStep
  split_ifs
  · exact Or.inl ⟨_, rfl⟩
  · rcases formula_die (tol := tol) (solve := solve) (K := K) (mask := maskOf tol K i) with ⟨r, h⟩ | h
    · rw [h]; exact Or.inl ⟨_, rfl⟩
    · rw [h]; exact Or.inr rfl

theorem setup_die (tol : ℝ) (solve : Solver) (K : M3.Mat ℝ) : (∃ r, setup tol solve K = .ok r) ∨ setup tol solve K = .error .die := by
  unfold setup
  rcases dirStep_die tol solve K (fun _ => false, [], []) 0 with ⟨s0, h⟩ | h
  · rw [h, Res.bind_ok]
    rcases dirStep_die tol solve K s0 1 with ⟨s1, h⟩ | h
    · rw [h, Res.bind_ok]
      rcases dirStep_die tol solve K s1 2 with ⟨s2, h⟩ | h
      · rw [h, Res.bind_ok]; exact Or.inl ⟨_, rfl⟩
      · rw [h]; exact Or.inr rfl
    · rw [h]; exact Or.inr rfl
  · rw [h]; exact Or.inr rfl

/-- A direction that is not done yet has a formula of its own, and is done afterwards. -/
theorem dirStep_new {tol : ℝ} {solve : Solver} {K : M3.Mat ℝ} {st st' : (Fin 3 → Bool) × List (V3 ℝ) × List ℝ} {i : Fin 3} (hi : st.1 i = false) (h : dirStep tol solve K st i = .ok st') :
    ∃ r, formula tol solve K (maskOf tol K i) = .ok r ∧ st' = (fun j => st.1 j || maskOf tol K i j, st.2.1 ++ r.1, st.2.2 ++ r.2) := by
  unfold dirStep at h
  rw [if_neg (by simp [hi])] at h
  cases hf : formula tol solve K (maskOf tol K i) with
  | error e => rw [hf] at h; simp [Res.bind_error] at h
  | ok r =>
    rw [hf, Res.bind_ok] at h
    injection h with h
    exact ⟨r, rfl, h.symm⟩

theorem dirStep_old {tol : ℝ} {solve : Solver} {K : M3.Mat ℝ} {st st' : (Fin 3 → Bool) × List (V3 ℝ) × List ℝ} {i : Fin 3} (hi : st.1 i = true) (h : dirStep tol solve K st i = .ok st') : st' = st := by
  unfold dirStep at h
  rw [if_pos hi] at h
  injection h with h
  exact h.symm

/-- Without directions there are no neighbours. -/
theorem formula_empty {tol : ℝ} {solve : Solver} {K : M3.Mat ℝ} {mask : Fin 3 → Bool} (h : ∀ j, mask j = false) : formula tol solve K mask = .error .die := by
  have h1 : dkMap K mask = [] := by
    rw [List.eq_nil_iff_forall_not_mem]
    intro e he
    obtain ⟨n, hn, _⟩ := ((dkMap_spec K mask).2 e).1 he
    obtain ⟨g1, g2⟩ := offsets_mem hn
    exact g1 (funext fun j => g2 j (h j))
  unfold formula
  rw [h1, dedup, search]

/-- Directions that are all orthogonal to each other. -/
theorem setup_single {tol : ℝ} (ht : 0 < tol) {solve : Solver} (hs : Exact solve) {K : M3.Mat ℝ} (hm : ∀ i j, maskOf tol K i j = decide (i = j)) (hK : ∀ i, K i i ≠ 0) :
    ∃ r, setup tol solve K = .ok r := by
  have hm' : ∀ i, maskOf tol K i = fun j => decide (i = j) := fun i => funext (hm i)
  have hst : ∀ st i, ∃ st', dirStep tol solve K st i = .ok st' := by
    intro st i
    unfold dirStep
    split_ifs
    · exact ⟨_, rfl⟩
    · obtain ⟨r, hr⟩ := formula_single ht hs (hK i)
      rw [hm' i, hr]
      exact ⟨_, rfl⟩
  unfold setup
  obtain ⟨s0, h0⟩ := hst (fun _ => false, [], []) 0
  obtain ⟨s1, h1⟩ := hst s0 1
  obtain ⟨s2, h2⟩ := hst s1 2
  rw [h0, Res.bind_ok, h1, Res.bind_ok, h2, Res.bind_ok]
  exact ⟨_, rfl⟩

/-- Directions that are all orthogonal to each other: the formula consists of one of each. -/
theorem setup_single_blocks {tol : ℝ} (ht : 0 < tol) {solve : Solver} {K : M3.Mat ℝ} (hm : ∀ i j, maskOf tol K i j = decide (i = j)) {r : List (V3 ℝ) × List ℝ} (h : setup tol solve K = .ok r) :
    ∃ r0 r1 r2 : List (V3 ℝ) × List ℝ, FormulaOK tol K (fun j => decide (0 = j)) r0.1 r0.2 ∧ FormulaOK tol K (fun j => decide (1 = j)) r1.1 r1.2 ∧ FormulaOK tol K (fun j => decide (2 = j)) r2.1 r2.2 ∧
      ∀ x y, moment r.1 r.2 x y = moment r0.1 r0.2 x y + moment r1.1 r1.2 x y + moment r2.1 r2.2 x y := by
  have hm' : ∀ i, maskOf tol K i = fun j => decide (i = j) := fun i => funext (hm i)
  obtain ⟨s0, s1, s2, h0, h1, h2, rfl⟩ := setup_steps h
  obtain ⟨r0, g0, rfl⟩ := dirStep_new rfl h0
  obtain ⟨r1, g1, rfl⟩ := dirStep_new (by simp [hm]) h1
  obtain ⟨r2, g2, rfl⟩ := dirStep_new (by simp [hm]) h2
  rw [hm'] at g0 g1 g2
  have f0 := formula_ok ht g0
  have f1 := formula_ok ht g1
  refine ⟨r0, r1, r2, f0, f1, formula_ok ht g2, fun x y => ?_⟩
  show moment (([] ++ r0.1 ++ r1.1) ++ r2.1) (([] ++ r0.2 ++ r1.2) ++ r2.2) x y = _
  rw [List.nil_append, List.nil_append, moment_append (by simp [f0.length, f1.length]), moment_append f0.length]

end
end Jdftx.WanFD
