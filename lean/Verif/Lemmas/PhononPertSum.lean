import Verif.Lemmas.PhononPert
import Verif.Lemmas.PhononFree
import Verif.Lemmas.BoxField

/-! # Lemmas for C99: accumulated gradients -/
namespace Jdftx.PhonPert
noncomputable section
open M3
open Phonon (prodSup getCell getUnit uOf)

variable {c : Cell} {o : Ops}

/-! ## Loops as sums -/

theorem foldl_at {α : Type} (sp b : Nat) (j : Fin 3) (sp2 y : Nat) (step : DGrad → α → DGrad) (δ : α → V3 ℝ) (l : List α)
    (h : ∀ g, ∀ x ∈ l, step g x sp b j sp2 y = g sp b j sp2 y + δ x) (g : DGrad) :
    (l.foldl step g) sp b j sp2 y = g sp b j sp2 y + (l.map δ).sum := by
  induction l generalizing g with
  | nil => simp
  | cons x l ih =>
    rw [List.foldl_cons, ih (fun g x hx => h g x (List.mem_cons_of_mem _ hx)), h _ _ (List.mem_cons_self ..), List.map_cons, List.sum_cons, add_assoc]

theorem foldl_range {sp b : Nat} {j : Fin 3} {sp2 y : Nat} (N : Nat) (step : DGrad → Nat → DGrad) (δ : Nat → V3 ℝ)
    (h : ∀ g, ∀ x < N, step g x sp b j sp2 y = g sp b j sp2 y + δ x) (g : DGrad) :
    ((List.range N).foldl step g) sp b j sp2 y = g sp b j sp2 y + ∑ x ∈ Finset.range N, δ x := by
  rw [foldl_at sp b j sp2 y step δ _ fun g x hx => h g x (List.mem_range.1 hx), Phonon.list_range_sum]

theorem addAt_at (g : DGrad) (sp a : Nat) (d : Fin 3) (sp2 a2 : Nat) (v : V3 ℝ) (sp' a' : Nat) (d' : Fin 3) (sp2' a2' : Nat) :
    addAt g sp a d sp2 a2 v sp' a' d' sp2' a2' = g sp' a' d' sp2' a2' + if sp' = sp ∧ a' = a ∧ d' = d ∧ sp2' = sp2 ∧ a2' = a2 then v else 0 := by
  unfold addAt; split_ifs <;> simp

/-- Image of the displaced atom in the unit cell. -/
def cls (c : Cell) (o : Ops) (p : Pert) (i : Nat) : Nat := o.atomMap p.sp p.at' i % c.nAt p.sp

/-- Contribution of a displacement with response `F`. -/
def term (c : Cell) (o : Ops) (F : Nat → Nat → V3 ℝ → Grad) (p : Pert) (sp b : Nat) (j : Fin 3) (sp2 y : Nat) : V3 ℝ :=
  ∑ i ∈ Finset.range o.nSym, if sp = p.sp ∧ b = cls c o p i then (p.weight * mulMV (o.rot i) p.dir j) • F sp b (mulMV (o.rot i) p.dir) sp2 y else 0

section group
variable {G : Type} [Group G] [Fintype G] (s : SpaceGroup c o G)

theorem accumulate_eq (hS : c.S.Pos) {F : Nat → Nat → V3 ℝ → Grad} (hF : Equivariant s F) (p : Pert) (hsp : p.sp < c.nSp) (hat : p.at' < c.nAt p.sp)
    (g : DGrad) (sp b : Nat) (j : Fin 3) {sp2 y : Nat} (hsp2 : sp2 < c.nSp) (hy : y < nTot c sp2) :
    accumulate c o p (F p.sp p.at' p.dir) g sp b j sp2 y = g sp b j sp2 y + term c o F p sp b j sp2 y := by
  classical
  unfold accumulate term
  refine foldl_range _ _ _ (fun g i hi => ?_) g
  dsimp only
  have hp := lt_nTot hS hat
  have hn := nAt_pos hat
  set x := o.atomMap p.sp p.at' i with hx
  set cell := getCell c.S ((x / c.nAt p.sp : Nat) : Int) with hcell
  set d := mulMV (o.rot i) p.dir with hd
  have hcls : x - c.nAt p.sp * (x / c.nAt p.sp) = cls c o p i := by
    unfold cls; rw [← hx, Nat.mod_eq_sub]
  -- element of the group
  set h : G := s.tr ⟨-cell.x, -cell.y, -cell.z⟩ * s.op i with hh
  have hxact : x = s.act (s.op i) p.sp p.at' := s.op_map i hi p.sp hsp _ hp
  have hact : s.act h p.sp p.at' = cls c o p i := by
    rw [hh, s.act_mul _ _ _ hsp _ hp, ← hxact, s.tr_act _ _ hsp _ (by rw [hxact]; exact s.act_lt _ _ hsp _ hp), hcell, move_back hS]
    rfl
  have hrho : ∀ v, mulMV (s.rho h) v = mulMV (o.rot i) v := by
    intro v; rw [hh, s.rho_mul, s.tr_rho, s.op_rot i hi]
  have h2 : ∀ sp2 < c.nSp, ∀ a2 < nTot c sp2, at2rot c (c.nAt sp2) ⟨-cell.x, -cell.y, -cell.z⟩ (o.atomMap sp2 a2 i) = s.act h sp2 a2 := by
    intro sp2 hsp2 a2 ha2
    rw [at2rot_eq hS, hh, s.act_mul _ _ _ hsp2 _ ha2, s.op_map i hi sp2 hsp2 _ ha2, s.tr_act _ _ hsp2 _ (s.act_lt _ _ hsp2 _ ha2)]
  have h3 : ∀ sp2 < c.nSp, ∀ a2 < nTot c sp2, mulMV (o.rot i) (F p.sp p.at' p.dir sp2 a2) = F p.sp (cls c o p i) d sp2 (s.act h sp2 a2) := by
    intro sp2 hsp2 a2 ha2
    rw [← hrho, ← hF h p.sp hsp p.at' hp p.dir sp2 hsp2 a2 ha2, hact, hrho]
  rw [foldl_range (sp := sp) (b := b) (j := j) (sp2 := sp2) (y := y) c.nSp _ fun sp2' =>
    if sp2' = sp2 then (if sp = p.sp ∧ b = cls c o p i then (p.weight * d j) • F sp b d sp2 y else 0) else 0]
  · rw [Finset.sum_ite_eq' (Finset.range c.nSp) sp2, if_pos (Finset.mem_range.2 hsp2)]
  intro g sp2' hsp2'
  rw [foldl_range (sp := sp) (b := b) (j := j) (sp2 := sp2) (y := y) (nTot c sp2') _ fun a2' =>
    if sp2' = sp2 ∧ y = s.act h sp2' a2' then (if sp = p.sp ∧ b = cls c o p i then (p.weight * d j) • F sp b d sp2 y else 0) else 0]
  · congr 1
    by_cases he : sp2' = sp2
    · subst he
      simp only [true_and, if_true]
      have := s.sum_act h hsp2 fun a => if y = a then (if sp = p.sp ∧ b = cls c o p i then (p.weight * d j) • F sp b d sp2' y else 0) else 0
      rw [this, Finset.sum_ite_eq, if_pos (Finset.mem_range.2 hy)]
    · simp [he]
  intro g a2' ha2'
  rw [foldl_at sp b j sp2 y _ (fun d' => if sp = p.sp ∧ b = cls c o p i ∧ j = d' ∧ sp2 = sp2' ∧ y = s.act h sp2' a2' then
      (p.weight * d d') • F p.sp (cls c o p i) d sp2' (s.act h sp2' a2') else 0) _ (fun g d' _ => ?_)]
  · congr 1
    rw [← List.ofFn_eq_map, List.sum_ofFn]
    by_cases hc : sp = p.sp ∧ b = cls c o p i ∧ sp2 = sp2' ∧ y = s.act h sp2' a2'
    · obtain ⟨h4, h5, h6, h7⟩ := hc
      rw [Finset.sum_eq_single j]
      · rw [if_pos ⟨h4, h5, rfl, h6, h7⟩, if_pos ⟨h6.symm, h7⟩, if_pos ⟨h4, h5⟩, h4, h5, h6, h7]
      · intro d' _ hne
        rw [if_neg]; rintro ⟨_, _, h8, _⟩; exact hne h8.symm
      · intro h8; exact absurd (Finset.mem_univ _) h8
    · rw [Finset.sum_eq_zero]
      · by_cases hc1 : sp2' = sp2 ∧ y = s.act h sp2' a2'
        · rw [if_pos hc1, if_neg]
          rintro ⟨h4, h5⟩; exact hc ⟨h4, h5, hc1.1.symm, hc1.2⟩
        · rw [if_neg hc1]
      · intro d' _
        rw [if_neg]; rintro ⟨h4, h5, _, h6, h7⟩; exact hc ⟨h4, h5, h6, h7⟩
  · rw [addAt_at, hcls, h2 sp2' hsp2' a2' ha2', h3 sp2' hsp2' a2' ha2']

theorem meanFree_eq {f : Nat → Nat → V3 ℝ → Grad} (hf : NoNetForce c f) {sp a : Nat} (hsp : sp < c.nSp) (ha : a < nTot c sp) (d : V3 ℝ) :
    meanFree c (f sp a d) = f sp a d := by
  unfold meanFree
  simp only [hf sp hsp a ha d, smul_zero, sub_zero]

/-- All contributions. -/
theorem foldl_terms (hS : c.S.Pos) {f : Nat → Nat → V3 ℝ → Grad} (hf : Equivariant s f) (h0 : NoNetForce c f) (ps : List Pert)
    (hps : ∀ p ∈ ps, p.sp < c.nSp ∧ p.at' < c.nAt p.sp) (g : DGrad) (sp b : Nat) (j : Fin 3) {sp2 y : Nat} (hsp2 : sp2 < c.nSp) (hy : y < nTot c sp2) :
    (ps.foldl (fun g p => accumulate c o p (meanFree c (f p.sp p.at' p.dir)) g) g) sp b j sp2 y
      = g sp b j sp2 y + (ps.map fun p => term c o f p sp b j sp2 y).sum := by
  refine foldl_at sp b j sp2 y _ _ ps (fun g p hp => ?_) g
  obtain ⟨h1, h2⟩ := hps p hp
  rw [meanFree_eq h0 h1 (lt_nTot hS h2), accumulate_eq s hS hf p h1 h2 g sp b j hsp2 hy]

end group
end
end Jdftx.PhonPert
