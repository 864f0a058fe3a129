import Verif.Spec.PhononPert
import Verif.Lemmas.Phonon
import Verif.Lemmas.Mat3
import Mathlib.Tactic.Linarith
import Mathlib.Tactic.Ring
import Mathlib.Tactic.FinCases
import Mathlib.Algebra.BigOperators.Group.Finset.Basic
import Mathlib.Algebra.BigOperators.Module

/-! # Lemmas for C99: space group and accumulation -/
namespace Jdftx.PhonPert
noncomputable section
open M3
open Phonon (prodSup getCell getUnit uOf)

/-! ## Linear algebra -/

theorem mulMV_smul' (m : Mat ℝ) (s : ℝ) (v : V3 ℝ) : mulMV m (s • v) = s • mulMV m v := by
  funext i; simp [mulMV]; ring

theorem mulMV_neg' (m : Mat ℝ) (v : V3 ℝ) : mulMV m (-v) = -mulMV m v := by
  funext i; simp [mulMV]; ring

theorem mulMV_sub' (m : Mat ℝ) (v w : V3 ℝ) : mulMV m (v - w) = mulMV m v - mulMV m w := by
  funext i; simp [mulMV]; ring

theorem mulMV_sum' {ι : Type*} (m : Mat ℝ) (t : Finset ι) (v : ι → V3 ℝ) : mulMV m (∑ i ∈ t, v i) = ∑ i ∈ t, mulMV m (v i) := by
  classical
  induction t using Finset.induction with
  | empty => funext i; simp [mulMV]
  | insert a t h ih => rw [Finset.sum_insert h, Finset.sum_insert h, ← ih]; funext i; simp [mulMV]; ring

/-! ## Moving atoms -/

variable {c : Cell} {o : Ops}

theorem move_eq (hS : c.S.Pos) (n : Nat) (k : Box.IV) (a : Nat) :
    move c.S n k a = a % n + n * uOf c.S ⟨(getCell c.S (a / n : Nat)).x + k.x, (getCell c.S (a / n : Nat)).y + k.y, (getCell c.S (a / n : Nat)).z + k.z⟩ := by
  unfold move
  simp only [Phonon.getUnit_toNat hS]

theorem move_mod (hS : c.S.Pos) {n : Nat} (k : Box.IV) (a : Nat) : move c.S n k a % n = a % n := by
  rw [move_eq hS, Nat.add_mul_mod_self_left, Nat.mod_mod]

theorem uOf_zero (S : Box.Size) : uOf S ⟨0, 0, 0⟩ = 0 := by simp [uOf]

/-- Moving back to the first cell. -/
theorem move_back (hS : c.S.Pos) {n a : Nat} :
    move c.S n ⟨-(getCell c.S (a / n : Nat)).x, -(getCell c.S (a / n : Nat)).y, -(getCell c.S (a / n : Nat)).z⟩ a = a % n := by
  rw [move_eq hS]
  simp only [add_neg_cancel, uOf_zero, mul_zero, add_zero]

/-- Any atom is the image of one of the first cell. -/
theorem move_out (hS : c.S.Pos) {n a : Nat} (hn : 0 < n) (ha : a < n * prodSup c.S) : move c.S n (getCell c.S (a / n : Nat)) (a % n) = a := by
  have h1 : a % n / n = 0 := Nat.div_eq_of_lt (Nat.mod_lt _ hn)
  have h2 : a / n < prodSup c.S := Nat.div_lt_of_lt_mul ha
  rw [move_eq hS, h1, Nat.mod_mod]
  have h3 : getCell c.S ((0 : Nat) : Int) = ⟨0, 0, 0⟩ := by rw [Phonon.getCell_nat]; simp
  simp only [h3, zero_add]
  rw [Phonon.uOf_getCell hS h2, Nat.mod_add_div]

theorem at2rot_eq (hS : c.S.Pos) (n : Nat) (k : Box.IV) (a : Nat) : at2rot c n k a = move c.S n k a := by
  rw [move_eq hS]
  unfold at2rot
  simp only [Phonon.getUnit_nat hS]
  set u := uOf c.S _
  have h : (a : Int) + n * ((u : Int) - ((a / n : Nat) : Int)) = ((a % n + n * u : Nat) : Int) := by
    have := Nat.mod_add_div a n
    have h2 : (a : Int) = ((a % n : Nat) : Int) + n * ((a / n : Nat) : Int) := by exact_mod_cast this.symm
    push_cast at h2 ⊢
    linear_combination h2
  rw [h, Int.toNat_natCast]

/-! ## Group -/

section group
variable {G : Type} [Group G] [Fintype G] (s : SpaceGroup c o G)

theorem nAt_pos {sp a : Nat} (ha : a < c.nAt sp) : 0 < c.nAt sp := by omega

theorem lt_nTot (hS : c.S.Pos) {sp a : Nat} (ha : a < c.nAt sp) : a < nTot c sp :=
  lt_of_lt_of_le ha (Nat.le_mul_of_pos_right _ (Phonon.prodSup_pos hS))

theorem SpaceGroup.act_inv {s : SpaceGroup c o G} (g : G) {sp a : Nat} (hsp : sp < c.nSp) (ha : a < nTot c sp) :
    s.act g sp (s.act g⁻¹ sp a) = a ∧ s.act g⁻¹ sp (s.act g sp a) = a := by
  constructor
  · rw [← s.act_mul _ _ sp hsp a ha, mul_inv_cancel, s.act_one sp hsp a ha]
  · rw [← s.act_mul _ _ sp hsp a ha, inv_mul_cancel, s.act_one sp hsp a ha]

theorem SpaceGroup.sum_act {M : Type*} [AddCommMonoid M] (g : G) {sp : Nat} (hsp : sp < c.nSp) (φ : Nat → M) :
    ∑ a ∈ Finset.range (nTot c sp), φ (s.act g sp a) = ∑ a ∈ Finset.range (nTot c sp), φ a := by
  refine Finset.sum_nbij' (s.act g sp) (s.act g⁻¹ sp) ?_ ?_ ?_ ?_ ?_
  · intro a ha; rw [Finset.mem_range] at ha ⊢; exact s.act_lt g sp hsp a ha
  · intro a ha; rw [Finset.mem_range] at ha ⊢; exact s.act_lt _ sp hsp a ha
  · intro a ha; exact (SpaceGroup.act_inv g hsp (Finset.mem_range.1 ha)).2
  · intro a ha; exact (SpaceGroup.act_inv g hsp (Finset.mem_range.1 ha)).1
  · intro a ha; rfl

/-- Number of elements of the group for each operation of the program. -/
def SpaceGroup.mult : Nat := by classical exact (Finset.univ.filter fun g => ∃ k, g = s.tr k * s.op 0).card

theorem SpaceGroup.coset_card (i : Nat) :
    (open Classical in (Finset.univ.filter fun g => ∃ k, g = s.tr k * s.op i).card) = s.mult := by
  classical
  unfold SpaceGroup.mult
  refine Finset.card_nbij' (fun g => g * (s.op i)⁻¹ * s.op 0) (fun g => g * (s.op 0)⁻¹ * s.op i) ?_ ?_ ?_ ?_
  · intro g hg
    simp only [Finset.coe_filter, Finset.mem_univ, true_and, Set.mem_ofPred_eq] at hg ⊢
    obtain ⟨k, rfl⟩ := hg
    exact ⟨k, by group⟩
  · intro g hg
    simp only [Finset.coe_filter, Finset.mem_univ, true_and, Set.mem_ofPred_eq] at hg ⊢
    obtain ⟨k, rfl⟩ := hg
    exact ⟨k, by group⟩
  · intro g _; group
  · intro g _; group

include s in
theorem SpaceGroup.nSym_pos : 0 < o.nSym := by
  obtain ⟨_, i, hi, _⟩ := s.all 1
  omega

theorem SpaceGroup.mult_pos : 0 < s.mult := by
  classical
  obtain ⟨k, i, hi, h⟩ := s.all 1
  rw [← s.coset_card i]
  refine Finset.card_pos.2 ⟨1, ?_⟩
  simp only [Finset.mem_filter, Finset.mem_univ, true_and]
  exact ⟨k, h⟩

/-- A sum over the group of a function that does not depend on translations. -/
theorem SpaceGroup.sum_group {M : Type*} [AddCommMonoid M] (φ : G → M) (hφ : ∀ k g, φ (s.tr k * g) = φ g) :
    ∑ g, φ g = s.mult • ∑ i ∈ Finset.range o.nSym, φ (s.op i) := by
  classical
  choose K I hI hg using s.all
  rw [← Finset.sum_fiberwise_of_maps_to (s := Finset.univ) (t := Finset.range o.nSym) (g := I) (fun g _ => Finset.mem_range.2 (hI g)), Finset.smul_sum]
  refine Finset.sum_congr rfl fun i hi => ?_
  rw [Finset.mem_range] at hi
  have h1 : (Finset.univ.filter fun g => I g = i) = Finset.univ.filter fun g => ∃ k, g = s.tr k * s.op i := by
    ext g
    simp only [Finset.mem_filter, Finset.mem_univ, true_and]
    constructor
    · rintro rfl; exact ⟨K g, hg g⟩
    · rintro ⟨k, h⟩
      exact s.once (K g) k _ (hI g) _ hi (by rw [← hg g, h])
  rw [h1]
  have h2 : ∀ g ∈ Finset.univ.filter (fun g => ∃ k, g = s.tr k * s.op i), φ g = φ (s.op i) := by
    intro g h
    simp only [Finset.mem_filter, Finset.mem_univ, true_and] at h
    obtain ⟨k, rfl⟩ := h
    exact hφ k _
  rw [Finset.sum_congr rfl h2, Finset.sum_const, ← s.coset_card i]

theorem SpaceGroup.card_group : Fintype.card G = s.mult * o.nSym := by
  have := s.sum_group (fun _ => (1 : Nat)) fun _ _ => rfl
  simpa using this

theorem SpaceGroup.act_tr_mod (hS : c.S.Pos) (k : Box.IV) (g : G) {sp a : Nat} (hsp : sp < c.nSp) (ha : a < nTot c sp) :
    s.act (s.tr k * g) sp a % c.nAt sp = s.act g sp a % c.nAt sp := by
  rw [s.act_mul _ _ sp hsp a ha, s.tr_act k sp hsp _ (s.act_lt g sp hsp a ha), move_mod hS]

/-- Sum over all atoms of the supercell. -/
theorem sum_range_cells {M : Type*} [AddCommMonoid M] (n P : Nat) (φ : Nat → M) (hφ : ∀ a < n * P, φ a = φ (a % n)) :
    ∑ a ∈ Finset.range (n * P), φ a = P • ∑ a ∈ Finset.range n, φ a := by
  induction P with
  | zero => simp
  | succ P ih =>
    rw [Nat.mul_succ, Finset.sum_range_add, ih fun a ha => hφ a (by rw [Nat.mul_succ]; omega), succ_nsmul]
    congr 1
    refine Finset.sum_congr rfl fun a ha => ?_
    rw [Finset.mem_range] at ha
    rw [hφ _ (by rw [Nat.mul_succ]; omega), Nat.mul_add_mod, Nat.mod_eq_of_lt ha]

/-- Each atom of the unit cell is the image of atoms of the unit cell as often as there are operations. -/
theorem SpaceGroup.count (hS : c.S.Pos) {sp b : Nat} (hsp : sp < c.nSp) (hb : b < c.nAt sp) :
    ∑ a ∈ Finset.range (c.nAt sp), ∑ i ∈ Finset.range o.nSym, (if s.act (s.op i) sp a % c.nAt sp = b then (1 : Nat) else 0) = o.nSym := by
  classical
  set n := c.nAt sp with hn
  have hn0 : 0 < n := by omega
  have hP := Phonon.prodSup_pos hS
  have hm := s.mult_pos
  have h1 : s.mult * ∑ a ∈ Finset.range n, ∑ i ∈ Finset.range o.nSym, (if s.act (s.op i) sp a % n = b then (1 : Nat) else 0)
      = ∑ a ∈ Finset.range n, ∑ g, (if s.act g sp a % n = b then (1 : Nat) else 0) := by
    rw [Finset.mul_sum]
    refine Finset.sum_congr rfl fun a ha => ?_
    rw [s.sum_group (fun g => if s.act g sp a % n = b then (1 : Nat) else 0) fun k g => ?_, smul_eq_mul]
    simp only [s.act_tr_mod hS k g hsp (lt_nTot hS (Finset.mem_range.1 ha)), hn]
  have h2 : prodSup c.S * ∑ a ∈ Finset.range n, ∑ g, (if s.act g sp a % n = b then (1 : Nat) else 0)
      = ∑ a ∈ Finset.range (n * prodSup c.S), ∑ g, (if s.act g sp a % n = b then (1 : Nat) else 0) := by
    rw [sum_range_cells, smul_eq_mul]
    intro a ha
    have ha' : a % n < nTot c sp := lt_nTot hS (Nat.mod_lt _ hn0)
    refine Fintype.sum_equiv (Equiv.mulRight (s.tr (getCell c.S (a / n : Nat)))) _ _ fun g => ?_
    have h := s.act_mul g (s.tr (getCell c.S (a / n : Nat))) sp hsp _ ha'
    rw [s.tr_act _ sp hsp _ ha', move_out hS hn0 ha] at h
    simp only [Equiv.coe_mulRight, h]
  have h3 : ∑ a ∈ Finset.range (n * prodSup c.S), ∑ g, (if s.act g sp a % n = b then (1 : Nat) else 0) = Fintype.card G * prodSup c.S := by
    rw [Finset.sum_comm]
    have : ∀ g : G, ∑ a ∈ Finset.range (n * prodSup c.S), (if s.act g sp a % n = b then (1 : Nat) else 0) = prodSup c.S := by
      intro g
      have := s.sum_act g hsp fun a => if a % n = b then (1 : Nat) else 0
      unfold nTot at this
      rw [this, sum_range_cells _ _ _ fun a _ => by rw [Nat.mod_mod], Finset.sum_eq_single b]
      · rw [Nat.mod_eq_of_lt hb]; simp
      · intro a ha h; rw [Nat.mod_eq_of_lt (Finset.mem_range.1 ha)]; simp [h]
      · intro h; exact absurd (Finset.mem_range.2 hb) h
    rw [Finset.sum_congr rfl fun g _ => this g]
    simp
  rw [s.card_group] at h3
  rw [← h1] at h2
  rw [h3] at h2
  have h4 : (prodSup c.S * s.mult) * ∑ a ∈ Finset.range n, ∑ i ∈ Finset.range o.nSym, (if s.act (s.op i) sp a % n = b then (1 : Nat) else 0)
      = (prodSup c.S * s.mult) * o.nSym := by rw [mul_assoc, h2]; ring
  exact Nat.eq_of_mul_eq_mul_left (Nat.mul_pos hP hm) h4

end group

end
end Jdftx.PhonPert
