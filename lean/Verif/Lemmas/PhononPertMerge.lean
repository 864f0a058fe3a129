import Verif.Lemmas.PhononPertSum
import Mathlib.Tactic.FieldSimp
import Mathlib.Tactic.Module

/-! # Lemmas for C99: irreducible displacements -/
namespace Jdftx.PhonPert
noncomputable section
open M3
open Phonon (prodSup getCell getUnit uOf)

variable {c : Cell} {o : Ops}

/-! ## Signs -/

/-- Projection by atom and direction. -/
theorem nHat_at (a b : Nat) (d : V3 ℝ) (j : Fin 3) : nHat a d (b * 3 + j) = if b = a then d j else 0 := by
  unfold nHat
  have h1 : (b * 3 + (j : Nat)) / 3 = b := by omega
  have h2 : Fin.ofNat 3 (b * 3 + (j : Nat)) = j := by
    apply Fin.ext; simp only [Fin.ofNat]; omega
  rw [h1, h2]

/-- With a linear response the contribution is given by the projection. -/
theorem term_proj {F : Nat → Nat → V3 ℝ → Grad} (p : Pert) {b : Nat} (j : Fin 3) {sp2 y : Nat}
    (hF : ∀ d, F p.sp b d sp2 y = ∑ k, d k • F p.sp b (unit k) sp2 y) :
    term c o F p p.sp b j sp2 y = ∑ k : Fin 3, projOf c o p (b * 3 + j) (b * 3 + k) • F p.sp b (unit k) sp2 y := by
  unfold term projOf
  simp only [nHat_at, Finset.sum_smul]
  rw [Finset.sum_comm]
  refine Finset.sum_congr rfl fun i _ => ?_
  rw [show o.atomMap p.sp p.at' i % c.nAt p.sp = cls c o p i from rfl]
  by_cases h : b = cls c o p i
  · simp only [if_pos h]
    rw [if_pos ⟨trivial, h⟩, hF (mulMV (o.rot i) p.dir), Finset.smul_sum]
    simp only [smul_smul]
  · simp only [if_neg h, mul_zero, zero_smul, Finset.sum_const_zero]
    rw [if_neg fun h' => h h'.2]

theorem term_other {F : Nat → Nat → V3 ℝ → Grad} (p : Pert) {sp b : Nat} (j : Fin 3) {sp2 y : Nat} (h : sp ≠ p.sp) : term c o F p sp b j sp2 y = 0 := by
  unfold term
  exact Finset.sum_eq_zero fun i _ => by rw [if_neg]; rintro ⟨h1, _⟩; exact h h1

/-- Both signs with half the weight. -/
theorem term_split {f : Nat → Nat → V3 ℝ → Grad} (p : Pert) (sp b : Nat) (j : Fin 3) (sp2 y : Nat) :
    term c o f { p with weight := p.weight * 0.5 } sp b j sp2 y + term c o f { p with weight := p.weight * 0.5, dir := (-1 : ℝ) • p.dir } sp b j sp2 y
      = term c o (central f) p sp b j sp2 y := by
  unfold term
  rw [← Finset.sum_add_distrib]
  refine Finset.sum_congr rfl fun i _ => ?_
  show (if sp = p.sp ∧ b = cls c o p i then _ else 0) + (if sp = p.sp ∧ b = cls c o p i then _ else 0) = (if sp = p.sp ∧ b = cls c o p i then _ else 0)
  split_ifs
  · simp only [mulMV_smul', central]
    simp only [neg_smul, one_smul, Pi.neg_apply]
    module
  · simp

theorem term_odd {f : Nat → Nat → V3 ℝ → Grad} {p : Pert} {sp b : Nat} {j : Fin 3} {sp2 y : Nat}
    (h : ∀ d, f sp b (-d) sp2 y = -f sp b d sp2 y) : term c o f p sp b j sp2 y = term c o (central f) p sp b j sp2 y := by
  unfold term
  refine Finset.sum_congr rfl fun i _ => ?_
  simp only [central, h]
  split_ifs
  · module
  · rfl

section group
variable {G : Type} [Group G] [Fintype G] (s : SpaceGroup c o G)

include s in
/-- A symmetry that reverses the displacement replaces the opposite displacement. -/
theorem term_even (hS : c.S.Pos) {f : Nat → Nat → V3 ℝ → Grad} (p : Pert) (hsp : p.sp < c.nSp) (hat : p.at' < c.nAt p.sp)
    {i₀ : Nat} (hi₀ : i₀ < o.nSym) (h1 : cls c o p i₀ = p.at') (h2 : mulMV (o.rot i₀) p.dir = -p.dir) (sp b : Nat) (j : Fin 3) (sp2 y : Nat) :
    term c o f p sp b j sp2 y = term c o (central f) p sp b j sp2 y := by
  classical
  have hp := lt_nTot hS hat
  -- function on the group
  let ψ : (Nat → Nat → V3 ℝ → Grad) → G → V3 ℝ := fun F g =>
    if sp = p.sp ∧ b = s.act g p.sp p.at' % c.nAt p.sp then (p.weight * mulMV (s.rho g) p.dir j) • F sp b (mulMV (s.rho g) p.dir) sp2 y else 0
  have hψ : ∀ F, ∀ k g, ψ F (s.tr k * g) = ψ F g := by
    intro F k g
    simp only [ψ, s.act_tr_mod hS k g hsp hp, s.rho_mul, s.tr_rho]
  have hterm : ∀ F, term c o F p sp b j sp2 y = ∑ i ∈ Finset.range o.nSym, ψ F (s.op i) := by
    intro F
    unfold term
    refine Finset.sum_congr rfl fun i hi => ?_
    rw [Finset.mem_range] at hi
    simp only [ψ, cls, s.op_map i hi p.sp hsp _ hp, s.op_rot i hi]
  have hm : (s.mult : ℝ) ≠ 0 := by have := s.mult_pos; positivity
  -- the element that reverses the displacement
  set x := s.act (s.op i₀) p.sp p.at' with hx
  set cell := getCell c.S ((x / c.nAt p.sp : Nat) : Int) with hcell
  set h : G := s.tr ⟨-cell.x, -cell.y, -cell.z⟩ * s.op i₀ with hh
  have hact : s.act h p.sp p.at' = p.at' := by
    rw [hh, s.act_mul _ _ _ hsp _ hp, ← hx, s.tr_act _ _ hsp _ (s.act_lt _ _ hsp _ hp), hcell, move_back hS, ← h1]
    unfold cls
    rw [s.op_map i₀ hi₀ p.sp hsp _ hp]
  have hrho : mulMV (s.rho h) p.dir = -p.dir := by
    rw [hh, s.rho_mul, s.tr_rho, ← s.op_rot i₀ hi₀, h2]
  have hsum : ∑ g, ψ f g = ∑ g, ψ (central f) g := by
    have h3 : ∑ g, ψ f g = ∑ g, ψ f (g * h) := (Equiv.sum_comp (Equiv.mulRight h) (ψ f)).symm
    have h4 : ∑ g, ψ (central f) g = (1 / 2 : ℝ) • (∑ g, ψ f g + ∑ g, ψ f (g * h)) := by
      rw [← Finset.sum_add_distrib, Finset.smul_sum]
      refine Finset.sum_congr rfl fun g _ => ?_
      simp only [ψ, s.act_mul _ _ _ hsp _ hp, hact, s.rho_mul, hrho, mulMV_neg']
      split_ifs
      · simp only [central, Pi.neg_apply]
        module
      · simp
    rw [h4, ← h3]
    module
  rw [s.sum_group _ (hψ f), s.sum_group _ (hψ (central f)), ← hterm, ← hterm] at hsum
  rw [← Nat.cast_smul_eq_nsmul ℝ, ← Nat.cast_smul_eq_nsmul ℝ] at hsum
  exact smul_right_injective _ hm hsum

end group

/-! ## Merging -/

theorem projOf_weight (p : Pert) (w : ℝ) (k l : Nat) : projOf c o { p with weight := w } k l = w * projOf c o { p with weight := 1 } k l := by
  unfold projOf
  rw [Finset.mul_sum]
  exact Finset.sum_congr rfl fun i _ => by simp only [one_mul]; ring

/-- The projection of an entry is that of a displacement with the initial weight. -/
structure Good (c : Cell) (o : Ops) (B : Fin 3 → V3 ℝ) (sp : Nat) (e : Entry) : Prop where
  mem : { e.p with weight := 1 / (o.nSym : ℝ) } ∈ pertSp c o B sp
  proj : e.proj = projOf c o { e.p with weight := 1 / (o.nSym : ℝ) }

variable {B : Fin 3 → V3 ℝ} {sp : Nat}

theorem good_entries : ∀ e ∈ (pertSp c o B sp).map (fun p => (⟨p, projOf c o p⟩ : Entry)), Good c o B sp e := by
  intro e he
  obtain ⟨p, hp, rfl⟩ := List.mem_map.1 he
  have hw : p.weight = 1 / (o.nSym : ℝ) := by
    obtain ⟨i, _, rfl⟩ := List.mem_map.1 hp; rfl
  have : ({ p with weight := 1 / (o.nSym : ℝ) } : Pert) = p := by rw [← hw]
  exact ⟨by simpa only [this] using hp, by simp only [this]⟩

theorem Good.at {e : Entry} (h : Good c o B sp e) : e.p.sp = sp ∧ e.p.at' < c.nAt sp ∧ ∃ d, e.p.dir = B d := by
  obtain ⟨i, hi, he⟩ := List.mem_map.1 h.mem
  rw [List.mem_range] at hi
  have h1 := congrArg Pert.sp he; have h2 := congrArg Pert.at' he; have h3 := congrArg Pert.dir he
  simp only at h1 h2 h3
  exact ⟨h1.symm, by omega, _, h3.symm⟩

theorem merge_good {tol : ℝ} {n : Nat} {e : Entry} (he : Good c o B sp e) : ∀ {l : List Entry}, (∀ x ∈ l, Good c o B sp x) → ∀ x ∈ merge tol n e l, Good c o B sp x
  | [], _, x, hx => by simp only [merge, List.mem_singleton] at hx; exact hx ▸ he
  | k :: l, hl, x, hx => by
    unfold merge at hx
    split_ifs at hx with h
    · rcases List.mem_cons.1 hx with rfl | hx
      · have := hl k (List.mem_cons_self ..)
        exact ⟨this.mem, this.proj⟩
      · exact hl x (List.mem_cons_of_mem _ hx)
    · rcases List.mem_cons.1 hx with rfl | hx
      · exact hl _ (List.mem_cons_self ..)
      · exact merge_good he (fun y hy => hl y (List.mem_cons_of_mem _ hy)) x hx

/-- Merging keeps the weighted sum of the projections. -/
theorem merge_sum (hn : 0 < o.nSym) (hsp : sp < c.nSp) (hs : Separated c o B) {e : Entry} (he : Good c o B sp e) {k l : Nat} (hk : k < c.nAt sp * 3) (hl : l < c.nAt sp * 3) :
    ∀ {L : List Entry}, (∀ x ∈ L, Good c o B sp x) →
      ((merge c.tol (c.nAt sp * 3) e L).map fun x => projOf c o x.p k l).sum = (L.map fun x => projOf c o x.p k l).sum + projOf c o e.p k l
  | [], _ => by simp [merge]
  | x :: L, hL => by
    unfold merge
    have hw : (1 / (o.nSym : ℝ)) ≠ 0 := by positivity
    split_ifs with h
    · have hx := hL x (List.mem_cons_self ..)
      rw [he.proj, hx.proj] at h
      have heq := hs.proj sp hsp _ he.mem _ hx.mem h k hk l hl
      rw [projOf_weight e.p, projOf_weight x.p] at heq
      have heq := mul_left_cancel₀ hw heq
      simp only [List.map_cons, List.sum_cons]
      rw [projOf_weight x.p (x.p.weight + e.p.weight), show projOf c o x.p k l = x.p.weight * projOf c o { x.p with weight := 1 } k l from projOf_weight x.p _ k l,
        show projOf c o e.p k l = e.p.weight * projOf c o { e.p with weight := 1 } k l from projOf_weight e.p _ k l, heq]
      ring
    · simp only [List.map_cons, List.sum_cons]
      rw [merge_sum hn hsp hs he hk hl fun y hy => hL y (List.mem_cons_of_mem _ hy)]
      ring

theorem merge_weight {tol : ℝ} {n : Nat} {e : Entry} : ∀ {L : List Entry},
    ((merge tol n e L).map fun x => x.p.weight).sum = (L.map fun x => x.p.weight).sum + e.p.weight
  | [] => by simp [merge]
  | x :: L => by
    unfold merge
    split_ifs with h
    · simp only [List.map_cons, List.sum_cons]; ring
    · simp only [List.map_cons, List.sum_cons]
      rw [merge_weight]; ring

theorem merge_length {tol : ℝ} {n : Nat} {e : Entry} : ∀ {L : List Entry}, (merge tol n e L).length ≤ L.length + 1
  | [] => by simp [merge]
  | x :: L => by
    unfold merge
    split_ifs with h
    · simp
    · simp only [List.length_cons]
      have := merge_length (tol := tol) (n := n) (e := e) (L := L)
      omega

theorem foldl_merge (hn : 0 < o.nSym) (hsp : sp < c.nSp) (hs : Separated c o B) : ∀ (es L : List Entry), (∀ x ∈ es, Good c o B sp x) → (∀ x ∈ L, Good c o B sp x) →
      (∀ x ∈ es.foldl (fun l e => merge c.tol (c.nAt sp * 3) e l) L, Good c o B sp x) ∧
      ∀ k < c.nAt sp * 3, ∀ l < c.nAt sp * 3, ((es.foldl (fun l e => merge c.tol (c.nAt sp * 3) e l) L).map fun x => projOf c o x.p k l).sum
        = (L.map fun x => projOf c o x.p k l).sum + (es.map fun x => projOf c o x.p k l).sum
  | [], L, _, hL => ⟨hL, fun k _ l _ => by simp⟩
  | e :: es, L, he, hL => by
    have he0 := he e (List.mem_cons_self ..)
    obtain ⟨h1, h2⟩ := foldl_merge hn hsp hs es (merge c.tol (c.nAt sp * 3) e L) (fun x hx => he x (List.mem_cons_of_mem _ hx)) (merge_good he0 hL)
    refine ⟨h1, fun k hk l hl => ?_⟩
    rw [List.foldl_cons, h2 k hk l hl, merge_sum hn hsp hs he0 hk hl hL, List.map_cons, List.sum_cons]
    ring

end
end Jdftx.PhonPert
