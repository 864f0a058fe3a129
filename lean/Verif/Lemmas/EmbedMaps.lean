import Verif.Lemmas.Embed
import Verif.Spec.Embed

/-! # Lemmas for the embedding: the maps built by the constructor -/
namespace Jdftx.Embed
open Jdftx.Box Jdftx.M3 Jdftx.WS
noncomputable section
open Classical

/-- Weight with which the value at `q` enters the symmetrised value at `p`. -/
def W (nE : Nat) (bkey : Nat → Option Int) (p q : Nat) : ℂ :=
  match bkey p with
  | none => if p = q then 1 else 0
  | some k => if bkey q = some k then 1 / (((Finset.range nE).filter fun r => bkey r = some k).card : ℂ) else 0

theorem W_symm (nE : Nat) (bkey : Nat → Option Int) (p q : Nat) : W nE bkey p q = W nE bkey q p := by
  unfold W
  cases hp : bkey p with
  | none =>
    cases hq : bkey q with
    | none => simp [eq_comm]
    | some k =>
      have : p ≠ q := fun e => by rw [e, hq] at hp; simp at hp
      simp [this]
  | some k =>
    cases hq : bkey q with
    | none =>
      have : q ≠ p := fun e => by rw [← e, hq] at hp; simp at hp
      simp [this]
    | some k' =>
      by_cases h : k = k'
      · subst h; simp
      · simp [h, Ne.symm h]

theorem W_real (nE : Nat) (bkey : Nat → Option Int) (p q : Nat) : star (W nE bkey p q) = W nE bkey p q := by
  unfold W
  cases bkey p with
  | none => simp only; split <;> simp
  | some k => simp only; split <;> simp

theorem W_sum (nE : Nat) (bkey : Nat → Option Int) (p : Nat) (hp : p < nE) : ∑ q ∈ Finset.range nE, W nE bkey p q = 1 := by
  unfold W
  cases h : bkey p with
  | none => simp [hp]
  | some k =>
    simp only
    rw [← Finset.sum_filter, Finset.sum_const, nsmul_eq_mul, mul_one_div, div_self]
    have : p ∈ (Finset.range nE).filter fun r => bkey r = some k := by simp [hp, h]
    exact_mod_cast (Finset.card_pos.2 ⟨p, this⟩).ne'

/-- All pairs entered when `bkey` tells which points are on the boundary. -/
def pairsOf (nE : Nat) (bkey : Nat → Option Int) : List (Int × Nat) := (List.range nE).filterMap fun q => (bkey q).map fun k => (k, q)

theorem mem_pairsOf (nE : Nat) (bkey : Nat → Option Int) (k : Int) (p : Nat) : (k, p) ∈ pairsOf nE bkey ↔ p < nE ∧ bkey p = some k := by
  unfold pairsOf
  simp only [List.mem_filterMap, List.mem_range, Option.map_eq_some_iff, Prod.mk.injEq]
  constructor
  · rintro ⟨q, hq, k', h1, rfl, rfl⟩; exact ⟨hq, h1⟩
  · rintro ⟨h1, h2⟩; exact ⟨p, h1, k, h2, rfl, rfl⟩

theorem pairsOf_filter (nE : Nat) (bkey : Nat → Option Int) (k : Int) :
    ((pairsOf nE bkey).filter fun q => q.1 = k).map Prod.snd = (List.range nE).filter fun q => bkey q = some k := by
  unfold pairsOf
  induction (List.range nE) with
  | nil => simp
  | cons a t ih =>
    rw [List.filterMap_cons]
    cases h : bkey a with
    | none =>
      simp only [Option.map_none]
      rw [ih, List.filter_cons_of_neg (by simp [h])]
    | some k' =>
      simp only [Option.map_some]
      by_cases hk : k' = k
      · subst hk
        rw [List.filter_cons_of_pos (by simp), List.map_cons, ih, List.filter_cons_of_pos (by simp [h])]
      · rw [List.filter_cons_of_neg (by simpa using hk), ih, List.filter_cons_of_neg (by simp [h, hk])]

theorem sum_range_filter (nE : Nat) (f : Nat → Prop) [DecidablePred f] (x : Fld) :
    (((List.range nE).filter fun q => f q).map x).sum = ∑ q ∈ (Finset.range nE).filter f, x q := by
  rw [Finset.sum_filter]
  induction nE with
  | zero => simp
  | succ n ih =>
    rw [List.range_succ, List.filter_append, List.map_append, List.sum_append, ih, Finset.sum_range_succ]
    congr 1
    by_cases h : f n <;> simp [h]

theorem length_range_filter (nE : Nat) (f : Nat → Prop) [DecidablePred f] :
    ((List.range nE).filter fun q => f q).length = ((Finset.range nE).filter f).card := by
  rw [Finset.card_filter]
  induction nE with
  | zero => simp
  | succ n ih =>
    rw [List.range_succ, List.filter_append, List.length_append, ih, Finset.sum_range_succ]
    congr 1
    by_cases h : f n <;> simp [h]

/-- The boundary symmetrisation built from the boundary points is `W`, whatever the order of arrival. -/
theorem boundary_W (nE : Nat) (bkey : Nat → Option Int) (arrived : List (Int × Nat)) (hperm : arrived.Perm (pairsOf nE bkey))
    (si : List (Nat × List Nat)) (hsi : symmIndex (runs (multimap arrived)) = .ok si) (x : Fld) :
    ∃ y, boundarySymmetrize nE si x = .ok y ∧ ∀ p < nE, y p = ∑ q ∈ Finset.range nE, W nE bkey p q * x q := by
  obtain ⟨ks, h1, h2, h3⟩ := runs_eq _ (multimap arrived) le_rfl (multimap_sorted arrived)
  have hL : (multimap arrived).Perm (pairsOf nE bkey) := (multimap_perm arrived).trans hperm
  have hcls : ∀ k, (((multimap arrived).filter fun q => q.1 = k).map Prod.snd).Perm ((List.range nE).filter fun q => bkey q = some k) := by
    intro k
    rw [← pairsOf_filter]
    exact (hL.filter _).map _
  have hks : ∀ k, k ∈ ks ↔ ∃ p < nE, bkey p = some k := by
    intro k
    rw [h2]
    constructor
    · rintro ⟨⟨k', p⟩, hp, rfl⟩
      exact ⟨p, (mem_pairsOf nE bkey k' p).1 (hL.mem_iff.1 hp)⟩
    · rintro ⟨p, hp⟩
      exact ⟨(k, p), hL.mem_iff.2 ((mem_pairsOf nE bkey k p).2 hp), rfl⟩
  have hmem : ∀ k p, p ∈ ((multimap arrived).filter fun q => q.1 = k).map Prod.snd ↔ p < nE ∧ bkey p = some k := by
    intro k p
    rw [(hcls k).mem_iff]; simp
  obtain ⟨y, e1, e2⟩ := sym_spec nE (runs (multimap arrived)) (by
      rw [h3, List.pairwise_map]
      refine h1.imp ?_
      intro k k' hkk p hp hp'
      have a := ((hmem k p).1 hp).2
      have b := ((hmem k' p).1 hp').2
      rw [a] at b
      exact hkk (Option.some.inj b))
    (by
      intro d hd p hp
      rw [h3, List.mem_map] at hd
      obtain ⟨k, _, rfl⟩ := hd
      exact ((hmem k p).1 hp).1)
    (by
      intro d hd
      rw [h3, List.mem_map] at hd
      obtain ⟨k, hk, rfl⟩ := hd
      obtain ⟨p, hp⟩ := (hks k).1 hk
      exact List.ne_nil_of_mem ((hmem k p).2 hp)) si hsi x
  refine ⟨y, e1, fun p hp => ?_⟩
  obtain ⟨f1, f2⟩ := e2 p
  unfold W
  cases h : bkey p with
  | none =>
    rw [f2]
    · simp [hp]
    · intro c hc hpc
      rw [h3, List.mem_map] at hc
      obtain ⟨k, _, rfl⟩ := hc
      have := ((hmem k p).1 hpc).2
      rw [h] at this; simp at this
  | some k =>
    simp only
    rw [f1 (((multimap arrived).filter fun q => q.1 = k).map Prod.snd) (by
        rw [h3]; exact List.mem_map_of_mem ((hks k).2 ⟨p, hp, h⟩)) ((hmem k p).2 ⟨hp, h⟩),
      ((hcls k).map x).sum_eq, (hcls k).length_eq, sum_range_filter nE (fun q => bkey q = some k) x,
      length_range_filter nE (fun q => bkey q = some k), Finset.sum_mul, Finset.sum_filter]
    apply Finset.sum_congr rfl
    intro q _
    by_cases hq : bkey q = some k <;> simp [hq, mul_comm]

theorem scatter_eq (nE : Nat) (idx : List Int) (hr : ∀ p ∈ idx, 0 ≤ p ∧ p < nE) (x : Fld) :
    scatter nE idx x = .ok fun p => ∑ i ∈ Finset.range idx.length, if (idx.getD i 0).toNat = p then x i else 0 := by
  unfold scatter
  rw [if_pos (by simpa using fun p hp => hr p hp)]
  congr 1
  have key : ∀ (l : List Int) (n : Nat) (o : Fld), (l.zipIdx n).foldl (fun o e => Function.update o e.1.toNat (o e.1.toNat + 1 * x e.2)) o =
      fun p => o p + ∑ i ∈ Finset.range l.length, if (l.getD i 0).toNat = p then x (n + i) else 0 := by
    intro l
    induction l with
    | nil => intro n o; simp
    | cons a t ih =>
      intro n o
      rw [List.zipIdx_cons, List.foldl_cons, ih]
      funext p
      rw [List.length_cons, Finset.sum_range_succ']
      simp only [List.getD_cons_succ, List.getD_cons_zero, Nat.add_zero, one_mul]
      have : ∀ i, n + 1 + i = n + (i + 1) := fun i => by omega
      simp only [this]
      by_cases h : a.toNat = p
      · subst h; simp; ring
      · rw [Function.update_of_ne (Ne.symm h)]; simp [h]
  have := key idx 0 fun _ => 0
  rw [this]
  funext p
  simp

theorem gather_eq (nE : Nat) (idx : List Int) (hr : ∀ p ∈ idx, 0 ≤ p ∧ p < nE) (y : Fld) :
    ∃ z, gather nE idx y = .ok z ∧ ∀ i < idx.length, z i = y (idx.getD i 0).toNat := by
  unfold gather
  rw [if_pos (by simpa using fun p hp => hr p hp)]
  refine ⟨_, rfl, fun i hi => ?_⟩
  simp [hi]

/-- What the constructor has prepared. -/
structure Valid (m : Maps) (bkey : Nat → Option Int) (e : Nat → Nat) : Prop where
  len : m.idx.length = m.nO
  range : ∀ p ∈ m.idx, 0 ≤ p ∧ p < m.nE
  e_eq : ∀ i < m.nO, (m.idx.getD i 0).toNat = e i
  sym : ∀ x : Fld, ∃ y, boundarySymmetrize m.nE m.si x = .ok y ∧ ∀ p < m.nE, y p = ∑ q ∈ Finset.range m.nE, W m.nE bkey p q * x q

theorem Valid.e_lt {m : Maps} {bkey : Nat → Option Int} {e : Nat → Nat} (h : Valid m bkey e) (i : Nat) (hi : i < m.nO) : e i < m.nE := by
  rw [← h.e_eq i hi]
  have hi' : i < m.idx.length := by rw [h.len]; exact hi
  have := h.range (m.idx.getD i 0) (by simp [hi'])
  omega

theorem Valid.expand {m : Maps} {bkey : Nat → Option Int} {e : Nat → Nat} (h : Valid m bkey e) (x : Fld) :
    ∃ y, expandR m x = .ok y ∧ ∀ p < m.nE, y p = ∑ i ∈ Finset.range m.nO, W m.nE bkey p (e i) * x i := by
  obtain ⟨y, h1, h2⟩ := h.sym fun p => ∑ i ∈ Finset.range m.idx.length, if (m.idx.getD i 0).toNat = p then x i else 0
  refine ⟨y, ?_, fun p hp => ?_⟩
  · unfold expandR
    rw [scatter_eq _ _ h.range, Res.bind_ok, h1]
  · rw [h2 p hp, h.len]
    have : ∀ q, W m.nE bkey p q * ∑ i ∈ Finset.range m.nO, (if (m.idx.getD i 0).toNat = q then x i else 0) =
        ∑ i ∈ Finset.range m.nO, if e i = q then W m.nE bkey p q * x i else 0 := by
      intro q
      rw [Finset.mul_sum]
      apply Finset.sum_congr rfl
      intro i hi
      rw [h.e_eq i (Finset.mem_range.1 hi), mul_ite, mul_zero]
    simp only [this]
    rw [Finset.sum_comm]
    apply Finset.sum_congr rfl
    intro i hi
    rw [Finset.sum_ite_eq, if_pos (Finset.mem_range.2 (h.e_lt i (Finset.mem_range.1 hi)))]

theorem Valid.shrink {m : Maps} {bkey : Nat → Option Int} {e : Nat → Nat} (h : Valid m bkey e) (y : Fld) :
    ∃ z, shrinkR m y = .ok z ∧ ∀ i < m.nO, z i = ∑ p ∈ Finset.range m.nE, W m.nE bkey (e i) p * y p := by
  obtain ⟨y', h1, h2⟩ := h.sym y
  obtain ⟨z, g1, g2⟩ := gather_eq m.nE m.idx h.range y'
  refine ⟨z, by unfold shrinkR; rw [h1, Res.bind_ok, g1], fun i hi => ?_⟩
  rw [g2 i (by rw [h.len]; exact hi), h.e_eq i hi, h2 _ (h.e_lt i hi)]

/-! ### Mesh arithmetic -/

theorem mod1_eq (v : Int) (s : Nat) : mod1 v s = v % s := by
  unfold mod1
  rcases Nat.eq_zero_or_pos s with rfl | hs
  · simp only [Nat.cast_zero, Int.tmod_zero, Int.emod_zero]; split <;> omega
  have hs' : (0 : Int) < s := by exact_mod_cast hs
  rcases le_or_gt 0 v with hv | hv
  · rw [Int.tmod_eq_emod_of_nonneg hv, if_neg (not_lt.2 (Int.emod_nonneg _ hs'.ne'))]
  · have e1 := Int.tmod_add_mul_tdiv v s
    have e2 : v.tmod s ≤ 0 := by
      have := Int.tmod_nonneg (a := -v) (s : Int) (by omega)
      rw [Int.neg_tmod] at this; omega
    have e3 : -(s : Int) < v.tmod s := by
      have := Int.tmod_lt_of_pos (-v) hs'
      rw [Int.neg_tmod] at this; omega
    split
    · next h =>
      rw [← e1, Int.add_mul_emod_self_left] 
      rw [← Int.add_emod_right, Int.emod_eq_of_lt (by omega) (by omega)]
      congr 1
      rw [e1]
    · next h =>
      have h0 : v.tmod s = 0 := by omega
      rw [h0]
      exact (Int.emod_eq_zero_of_dvd (Int.dvd_of_tmod_eq_zero h0)).symm

theorem coord_rStart (S : Size) (p : Nat) : coord S p = toV (rStart S p) := rfl

theorem samples_eq (S : Size) : samples S = sizeV S := rfl

theorem index_coord (S : Size) (hS : S.Pos) (v : V3 Int) :
    ∃ p, p < nr S ∧ mod1 (v 2) S.s2 + S.s2 * (mod1 (v 1) S.s1 + S.s1 * mod1 (v 0) S.s0) = (p : Int) ∧
      ∀ k, samples S k ∣ v k - coord S p k := by
  have h0 : (0 : Int) < S.s0 := by exact_mod_cast hS.1
  have h1 : (0 : Int) < S.s1 := by exact_mod_cast hS.2.1
  have h2 : (0 : Int) < S.s2 := by exact_mod_cast hS.2.2
  simp only [mod1_eq]
  have hv : ValidR S ⟨v 0 % S.s0, v 1 % S.s1, v 2 % S.s2⟩ :=
    ⟨⟨Int.emod_nonneg _ h0.ne', Int.emod_lt_of_pos _ h0⟩, ⟨Int.emod_nonneg _ h1.ne', Int.emod_lt_of_pos _ h1⟩,
      ⟨Int.emod_nonneg _ h2.ne', Int.emod_lt_of_pos _ h2⟩⟩
  obtain ⟨r1, r2⟩ := fullRindex_range S _ hv
  set p := (fullRindex S ⟨v 0 % S.s0, v 1 % S.s1, v 2 % S.s2⟩).toNat with hp
  have hpe : fullRindex S ⟨v 0 % S.s0, v 1 % S.s1, v 2 % S.s2⟩ = (p : Int) := by omega
  have hpl : p < nr S := by omega
  refine ⟨p, hpl, hpe, ?_⟩
  have hst : rStart S p = ⟨v 0 % S.s0, v 1 % S.s1, v 2 % S.s2⟩ :=
    fullRindex_inj S _ _ (rStart_valid S hS p hpl) hv (by rw [rStart_index, hpe])
  rw [coord_rStart, hst]
  intro k
  match k with
  | 0 => exact Int.dvd_self_sub_emod
  | 1 => exact Int.dvd_self_sub_emod
  | 2 => exact Int.dvd_self_sub_emod

/-- Points of a mesh with coordinates equal up to periods are equal. -/
theorem coord_inj (S : Size) (hS : S.Pos) (p q : Nat) (hp : p < nr S) (hq : q < nr S) (h : ∀ k, samples S k ∣ coord S p k - coord S q k) :
    p = q := by
  obtain ⟨a0, a1, a2⟩ := rStart_valid S hS p hp
  obtain ⟨b0, b1, b2⟩ := rStart_valid S hS q hq
  have key : ∀ (s : Nat) (a b : Int), (0 ≤ a ∧ a < s) → (0 ≤ b ∧ b < s) → (s : Int) ∣ a - b → a = b := by
    intro s a b ha hb hd
    have := Int.emod_emod_of_dvd
    have h1 := Int.emod_eq_emod_iff_emod_sub_eq_zero.2 (Int.emod_eq_zero_of_dvd hd)
    rwa [Int.emod_eq_of_lt ha.1 ha.2, Int.emod_eq_of_lt hb.1 hb.2] at h1
  have e : rStart S p = rStart S q := by
    have x := key S.s0 _ _ a0 b0 (h 0)
    have y := key S.s1 _ _ a1 b1 (h 1)
    have z := key S.s2 _ _ a2 b2 (h 2)
    cases hp' : rStart S p; cases hq' : rStart S q
    rw [hp', hq'] at x y z
    simp_all
  have := rStart_index S p
  rw [e, rStart_index] at this
  exact_mod_cast this.symm

end
end Jdftx.Embed
