import Verif.Lemmas.PhononPertMerge
import Mathlib.LinearAlgebra.Matrix.NonsingularInverse
import Mathlib.Tactic.LinearCombination

/-! # Lemmas for C99: the sum of the projections and the result -/
namespace Jdftx.PhonPert
noncomputable section
open M3
open Phonon (prodSup getCell getUnit uOf)

variable {c : Cell} {o : Ops} {B : Fin 3 → V3 ℝ} {sp : Nat}

/-- Completeness of three orthonormal vectors. -/
theorem Orthonormal.complete (h : Orthonormal B) (j k : Fin 3) : ∑ d, B d j * B d k = if j = k then 1 else 0 := by
  have h1 : (Matrix.of B) * (Matrix.of B).transpose = 1 := by
    ext i j
    rw [Matrix.mul_apply]
    have := h i j
    simp only [dot] at this
    simp only [Matrix.of_apply, Matrix.transpose_apply, Fin.sum_univ_three, Matrix.one_apply]
    exact this
  have h2 := mul_eq_one_comm.1 h1
  have h3 := congrFun (congrFun h2 j) k
  rw [Matrix.mul_apply] at h3
  simpa only [Matrix.of_apply, Matrix.transpose_apply, Matrix.one_apply] using h3

theorem Orthonormal.rot (h : Orthonormal B) {m : Mat ℝ} (hm : ∀ v w, dot (mulMV m v) (mulMV m w) = dot v w) : Orthonormal fun d => mulMV m (B d) :=
  fun i j => by rw [hm]; exact h i j

theorem rot_complete (h : Orthonormal B) {m : Mat ℝ} (hm : ∀ v w, dot (mulMV m v) (mulMV m w) = dot v w) (j k : Fin 3) :
    ∑ d, mulMV m (B d) j * mulMV m (B d) k = if j = k then 1 else 0 := (h.rot hm).complete j k

theorem sum_range_three {M : Type*} [AddCommMonoid M] (φ : Nat → M) : ∑ z ∈ Finset.range 3, φ z = ∑ d : Fin 3, φ d := by
  rw [Finset.sum_range]

section group
variable {G : Type} [Group G] [Fintype G] (s : SpaceGroup c o G)

include s in
/-- The projections on the stars of all displacements of a species sum to the identity. -/
theorem proj_total (hS : c.S.Pos) (hB : Orthonormal B) (hsp : sp < c.nSp) {k l : Nat} (hk : k < c.nAt sp * 3) (_hl : l < c.nAt sp * 3) :
    ((pertSp c o B sp).map fun p => projOf c o p k l).sum = if k = l then 1 else 0 := by
  classical
  set n := c.nAt sp with hn
  have hns : (o.nSym : ℝ) ≠ 0 := by have := s.nSym_pos; positivity
  obtain ⟨b, j, rfl⟩ : ∃ (b : Nat) (j : Fin 3), k = b * 3 + j := ⟨k / 3, ⟨k % 3, by omega⟩, by simp only; omega⟩
  obtain ⟨b', j', rfl⟩ : ∃ (b : Nat) (j : Fin 3), l = b * 3 + j := ⟨l / 3, ⟨l % 3, by omega⟩, by simp only; omega⟩
  have hb : b < n := by omega
  unfold pertSp
  rw [List.map_map, Phonon.list_range_sum, Box.sum_range_mul']
  have h1 : ∀ a < n, ∑ z ∈ Finset.range 3, ((fun p => projOf c o p (b * 3 + j) (b' * 3 + j')) ∘ fun i =>
        ({ sp := sp, at' := i / 3, dir := B (Fin.ofNat 3 i), weight := 1 / (o.nSym : ℝ) } : Pert)) (a * 3 + z)
      = 1 / (o.nSym : ℝ) * (if b = b' ∧ j = j' then ∑ i ∈ Finset.range o.nSym, (if s.act (s.op i) sp a % n = b then (1 : ℝ) else 0) else 0) := by
    intro a ha
    rw [sum_range_three]
    have h2 : ∀ z : Fin 3, ((fun p => projOf c o p (b * 3 + j) (b' * 3 + j')) ∘ fun i =>
        ({ sp := sp, at' := i / 3, dir := B (Fin.ofNat 3 i), weight := 1 / (o.nSym : ℝ) } : Pert)) (a * 3 + z)
        = ∑ i ∈ Finset.range o.nSym, 1 / (o.nSym : ℝ) * (if s.act (s.op i) sp a % n = b ∧ s.act (s.op i) sp a % n = b' then
            mulMV (s.rho (s.op i)) (B z) j * mulMV (s.rho (s.op i)) (B z) j' else 0) := by
      intro z
      have e1 : (a * 3 + (z : Nat)) / 3 = a := by omega
      have e2 : Fin.ofNat 3 (a * 3 + (z : Nat)) = z := by apply Fin.ext; simp only [Fin.ofNat]; omega
      simp only [Function.comp_apply, e1, e2, projOf, nHat_at]
      refine Finset.sum_congr rfl fun i hi => ?_
      rw [Finset.mem_range] at hi
      rw [s.op_map i hi sp hsp a (lt_nTot hS ha), s.op_rot i hi, ← hn]
      set x := s.act (s.op i) sp a % n
      by_cases h3 : b = x
      · by_cases h4 : b' = x
        · rw [if_pos h3, if_pos h4, if_pos ⟨h3.symm, h4.symm⟩]; ring
        · rw [if_pos h3, if_neg h4, if_neg (fun h => h4 h.2.symm)]; ring
      · rw [if_neg h3, if_neg (c := x = b ∧ x = b') (fun h => h3 h.1.symm)]; ring
    rw [Finset.sum_congr rfl fun z _ => h2 z, Finset.sum_comm]
    have h3 : ∀ i, ∑ z, 1 / (o.nSym : ℝ) * (if s.act (s.op i) sp a % n = b ∧ s.act (s.op i) sp a % n = b' then
            mulMV (s.rho (s.op i)) (B z) j * mulMV (s.rho (s.op i)) (B z) j' else 0)
          = 1 / (o.nSym : ℝ) * (if b = b' ∧ j = j' then (if s.act (s.op i) sp a % n = b then (1 : ℝ) else 0) else 0) := by
      intro i
      rw [← Finset.mul_sum]
      congr 1
      have h5 := rot_complete hB (s.rho_orth (s.op i)) j j'
      by_cases h6 : s.act (s.op i) sp a % n = b
      · by_cases h7 : b = b'
        · have h8 : s.act (s.op i) sp a % n = b' := h6.trans h7
          rw [Finset.sum_congr rfl fun z _ => if_pos ⟨h6, h8⟩, h5]
          by_cases h9 : j = j'
          · rw [if_pos h9, if_pos ⟨h7, h9⟩, if_pos h6]
          · rw [if_neg h9, if_neg fun h => h9 h.2]
        · rw [Finset.sum_eq_zero fun z _ => if_neg fun h => h7 (h6.symm.trans h.2), if_neg fun h => h7 h.1]
      · rw [Finset.sum_eq_zero fun z _ => if_neg fun h => h6 h.1]
        split_ifs <;> simp
    rw [Finset.sum_congr rfl fun i _ => h3 i, ← Finset.mul_sum]
    congr 1
    split_ifs <;> simp
  rw [Finset.sum_congr rfl fun a ha => h1 a (Finset.mem_range.1 ha), ← Finset.mul_sum]
  have hcount : ∑ a ∈ Finset.range n, ∑ i ∈ Finset.range o.nSym, (if s.act (s.op i) sp a % n = b then (1 : ℝ) else 0) = o.nSym := by
    have := s.count hS hsp hb
    have h4 : ((∑ a ∈ Finset.range n, ∑ i ∈ Finset.range o.nSym, (if s.act (s.op i) sp a % n = b then (1 : Nat) else 0) : Nat) : ℝ) = (o.nSym : ℝ) := by
      exact_mod_cast this
    rw [← h4]; push_cast; rfl
  by_cases hbb : b = b' ∧ j = j'
  · simp only [if_pos hbb]
    rw [hcount, if_pos (by rw [hbb.1, hbb.2])]
    field_simp
  · simp only [if_neg hbb, Finset.sum_const_zero, mul_zero]
    rw [if_neg]
    intro h
    exact hbb ⟨by omega, Fin.ext (by omega)⟩

theorem nrm2_zero (n : Nat) (A : Nat → Nat → ℝ) (h : ∀ k < n, ∀ l < n, A k l = 0) : nrm2 n A = 0 := by
  unfold nrm2
  rw [Finset.sum_eq_zero, Real.sqrt_zero]
  intro k hk
  refine Finset.sum_eq_zero fun l hl => ?_
  rw [h k (Finset.mem_range.1 hk) l (Finset.mem_range.1 hl)]; ring

/-- The signed displacements found for a species. -/
def perts (c : Cell) (o : Ops) (B : Fin 3 → V3 ℝ) (useVPT : Bool) (sp : Nat) : List Pert :=
  (((pertSp c o B sp).map fun p => (⟨p, projOf c o p⟩ : Entry)).foldl (fun l e => merge c.tol (c.nAt sp * 3) e l) []).flatMap fun e => signed c o useVPT e.p

include s in
theorem findSp_ok (hS : c.S.Pos) (hB : Orthonormal B) (ht : 0 < c.tol) (useVPT : Bool) (hsp : sp < c.nSp) :
    findSp c o B useVPT sp = .ok (perts c o B useVPT sp) := by
  unfold findSp
  dsimp only
  rw [if_pos]
  · rfl
  · rw [nrm2_zero]
    · exact ht
    · intro k hk l hl
      rw [List.map_map]
      have := proj_total s hS hB hsp hk hl
      rw [show ((fun e : Entry => e.proj k l) ∘ fun p => (⟨p, projOf c o p⟩ : Entry)) = fun p => projOf c o p k l from rfl, this]
      split_ifs <;> simp

theorem find_ok {useVPT : Bool} (h : ∀ sp < c.nSp, findSp c o B useVPT sp = .ok (perts c o B useVPT sp)) :
    find c o B useVPT = .ok ((List.range c.nSp).flatMap (perts c o B useVPT)) := by
  unfold find
  have : ∀ (l : List Nat), (∀ sp ∈ l, sp < c.nSp) → ∀ acc : List Pert, l.foldlM (fun l sp => do
      let m ← findSp c o B useVPT sp
      pure (l ++ m)) acc = (.ok (acc ++ l.flatMap (perts c o B useVPT)) : Res (List Pert)) := by
    intro l
    induction l with
    | nil => intro _ acc; simp; rfl
    | cons a l ih =>
      intro hl acc
      rw [List.foldlM_cons, h a (hl a (List.mem_cons_self ..))]
      simp only [Res.bind_ok]
      show (List.foldlM _ (acc ++ perts c o B useVPT a) l) = _
      rw [ih (fun x hx => hl x (List.mem_cons_of_mem _ hx))]
      rw [List.flatMap_cons, List.append_assoc]
  have h2 := this (List.range c.nSp) (fun sp h => List.mem_range.1 h) []
  simpa using h2

theorem signed_mem {useVPT : Bool} {p q : Pert} (hq : q ∈ signed c o useVPT p) : q.sp = p.sp ∧ q.at' = p.at' := by
  unfold signed at hq
  split_ifs at hq
  · rw [List.mem_singleton] at hq; subst hq; exact ⟨rfl, rfl⟩
  · simp only [List.mem_cons, List.not_mem_nil, or_false] at hq
    rcases hq with rfl | rfl <;> exact ⟨rfl, rfl⟩

include s in
/-- The signed displacements of an irreducible one give the central difference. -/
theorem signed_sum (hS : c.S.Pos) {f : Nat → Nat → V3 ℝ → Grad} {useVPT : Bool} (hodd : useVPT = true → Odd c f) (hs : Separated c o B) {e : Entry} (he : Good c o B sp e)
    (hsp : sp < c.nSp) {b : Nat} (hb : b < c.nAt sp) (j : Fin 3) {sp2 y : Nat} (hsp2 : sp2 < c.nSp) (hy : y < nTot c sp2) :
    ((signed c o useVPT e.p).map fun p => term c o f p sp b j sp2 y).sum = term c o (central f) e.p sp b j sp2 y := by
  obtain ⟨h1, h2, d, h3⟩ := he.at
  unfold signed
  split_ifs with h
  · simp only [List.map_cons, List.map_nil, List.sum_cons, List.sum_nil, add_zero]
    by_cases hv : useVPT = true
    · exact term_odd fun d => hodd hv sp hsp b (lt_nTot hS hb) d sp2 hsp2 y hy
    · obtain ⟨i, hi, h4, h5⟩ := h.resolve_right hv
      refine term_even s hS e.p (by rw [h1]; exact hsp) (by rw [h1]; exact h2) hi h4 ?_ sp b j sp2 y
      rw [h3] at h5 ⊢
      exact hs.even i hi d h5
  · simp only [List.map_cons, List.map_nil, List.sum_cons, List.sum_nil, add_zero]
    exact term_split e.p sp b j sp2 y

theorem flatMap_sum' {α β M : Type*} [AddCommMonoid M] (l : List α) (t : α → List β) (φ : β → M) : ((l.flatMap t).map φ).sum = (l.map fun x => ((t x).map φ).sum).sum := by
  induction l with
  | nil => simp
  | cons a l ih => rw [List.flatMap_cons, List.map_append, List.sum_append, ih, List.map_cons, List.sum_cons]

include s in
/-- The displacements of a species give the central differences of its modes. -/
theorem perts_sum (hS : c.S.Pos) (hB : Orthonormal B) {f : Nat → Nat → V3 ℝ → Grad} (hlin : Linear c f) {useVPT : Bool} (hodd : useVPT = true → Odd c f) (hs : Separated c o B)
    (hsp : sp < c.nSp) {b : Nat} (hb : b < c.nAt sp) (j : Fin 3) {sp2 y : Nat} (hsp2 : sp2 < c.nSp) (hy : y < nTot c sp2) :
    ((perts c o B useVPT sp).map fun p => term c o f p sp b j sp2 y).sum = central f sp b (unit j) sp2 y := by
  obtain ⟨hgood, hsum⟩ := foldl_merge (c := c) (o := o) (B := B) (sp := sp) s.nSym_pos hsp hs
    ((pertSp c o B sp).map fun p => (⟨p, projOf c o p⟩ : Entry)) [] good_entries (fun x hx => absurd hx (List.not_mem_nil))
  unfold perts
  set L := ((pertSp c o B sp).map fun p => (⟨p, projOf c o p⟩ : Entry)).foldl (fun l e => merge c.tol (c.nAt sp * 3) e l) [] with hL
  rw [flatMap_sum']
  have h1 : (L.map fun x => ((signed c o useVPT x.p).map fun p => term c o f p sp b j sp2 y).sum)
      = L.map fun x => ∑ k : Fin 3, projOf c o x.p (b * 3 + j) (b * 3 + k) • central f sp b (unit k) sp2 y := by
    refine List.map_congr_left fun x hx => ?_
    rw [signed_sum s hS hodd hs (hgood x hx) hsp hb j hsp2 hy]
    have h2 := (hgood x hx).at.1
    rw [← h2]
    exact term_proj x.p j fun d => hlin x.p.sp (by rw [h2]; exact hsp) b (by rw [h2]; exact lt_nTot hS hb) d sp2 hsp2 y hy
  rw [h1]
  have h3 : ∀ l : List Entry, (l.map fun x => ∑ k : Fin 3, projOf c o x.p (b * 3 + j) (b * 3 + k) • central f sp b (unit k) sp2 y).sum
      = ∑ k : Fin 3, (l.map fun x => projOf c o x.p (b * 3 + j) (b * 3 + k)).sum • central f sp b (unit k) sp2 y := by
    intro l
    induction l with
    | nil => simp
    | cons a l ih => simp only [List.map_cons, List.sum_cons, ih, add_smul, Finset.sum_add_distrib]
  rw [h3, Finset.sum_eq_single j]
  · rw [hsum _ (by omega) _ (by omega), List.map_map, List.map_nil, List.sum_nil, zero_add]
    rw [show ((fun x : Entry => projOf c o x.p (b * 3 + ↑j) (b * 3 + ↑j)) ∘ fun p => (⟨p, projOf c o p⟩ : Entry)) = fun p => projOf c o p (b * 3 + j) (b * 3 + j) from rfl,
      proj_total s hS hB hsp (by omega) (by omega), if_pos rfl, one_smul]
  · intro k _ hk
    rw [hsum _ (by omega) _ (by omega), List.map_map, List.map_nil, List.sum_nil, zero_add]
    rw [show ((fun x : Entry => projOf c o x.p (b * 3 + ↑j) (b * 3 + ↑k)) ∘ fun p => (⟨p, projOf c o p⟩ : Entry)) = fun p => projOf c o p (b * 3 + j) (b * 3 + k) from rfl,
      proj_total s hS hB hsp (by omega) (by omega), if_neg, zero_smul]
    intro h
    exact hk (Fin.ext (by omega))
  · intro h; exact absurd (Finset.mem_univ _) h

include s in
theorem perts_mem (hs : Separated c o B) {useVPT : Bool} (hsp : sp < c.nSp) {p : Pert} (hp : p ∈ perts c o B useVPT sp) : p.sp = sp ∧ p.at' < c.nAt sp := by
  obtain ⟨hgood, _⟩ := foldl_merge (c := c) (o := o) (B := B) (sp := sp) s.nSym_pos hsp hs
    ((pertSp c o B sp).map fun p => (⟨p, projOf c o p⟩ : Entry)) [] good_entries (fun x hx => absurd hx (List.not_mem_nil))
  obtain ⟨e, he, hp⟩ := List.mem_flatMap.1 hp
  obtain ⟨h1, h2, _⟩ := (hgood e he).at
  obtain ⟨h3, h4⟩ := signed_mem hp
  exact ⟨h3.trans h1, by rw [h4]; exact h2⟩

include s in
/-- Contributions of all species. -/
theorem all_sum (hS : c.S.Pos) (hB : Orthonormal B) {f : Nat → Nat → V3 ℝ → Grad} (hlin : Linear c f) {useVPT : Bool} (hodd : useVPT = true → Odd c f) (hs : Separated c o B)
    (hsp : sp < c.nSp) {b : Nat} (hb : b < c.nAt sp) (j : Fin 3) {sp2 y : Nat} (hsp2 : sp2 < c.nSp) (hy : y < nTot c sp2) :
    (((List.range c.nSp).flatMap (perts c o B useVPT)).map fun p => term c o f p sp b j sp2 y).sum = central f sp b (unit j) sp2 y := by
  rw [flatMap_sum', Phonon.list_range_sum, Finset.sum_eq_single sp]
  · exact perts_sum s hS hB hlin hodd hs hsp hb j hsp2 hy
  · intro sp' hsp' hne
    rw [Finset.mem_range] at hsp'
    rw [List.sum_eq_zero]
    intro x hx
    obtain ⟨p, hp, rfl⟩ := List.mem_map.1 hx
    exact term_other p j (by rw [(perts_mem s hs hsp' hp).1]; exact hne.symm)
  · intro h; exact absurd (Finset.mem_range.2 hsp) h

end group
end
end Jdftx.PhonPert
