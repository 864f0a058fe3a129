import Verif.Spec.Phonon
import Verif.Lemmas.HalfFFT
import Verif.Lemmas.Symmetrize
import Mathlib.Algebra.BigOperators.Fin
import Mathlib.Tactic.Linarith

/-!
# Lemmas for C98: indices of cells, transform over cells
-/
namespace Jdftx.Phonon
noncomputable section
open Matrix
open ExCorr (ph)

/-! ### Indices of cells -/

theorem getCell_nat (S : Box.Size) (u : Nat) : getCell S (u : Int) = ⟨(u / S.s2 / S.s1 : Nat), (u / S.s2 % S.s1 : Nat), (u % S.s2 : Nat)⟩ := by
  unfold getCell
  simp only [← Int.ofNat_tdiv, ← Int.ofNat_tmod]

theorem getUnit_eq {S : Box.Size} (hS : S.Pos) (c : Box.IV) :
    getUnit S c = (c.x % (S.s0 : Int) * S.s1 + c.y % (S.s1 : Int)) * S.s2 + c.z % (S.s2 : Int) := by
  unfold getUnit
  rw [Sym.positiveRemainder_eq _ _ hS.1, Sym.positiveRemainder_eq _ _ hS.2.1, Sym.positiveRemainder_eq _ _ hS.2.2]

/-- The unit index of a cell, as a natural number. -/
def uOf (S : Box.Size) (c : Box.IV) : Nat := ((c.x % (S.s0 : Int)).toNat * S.s1 + (c.y % (S.s1 : Int)).toNat) * S.s2 + (c.z % (S.s2 : Int)).toNat

theorem emod_lt {s : Nat} (hs : 0 < s) (x : Int) : (x % (s : Int)).toNat < s ∧ ((x % (s : Int)).toNat : Int) = x % (s : Int) := by
  have h1 := Int.emod_nonneg x (show (s : Int) ≠ 0 by omega)
  have h2 := Int.emod_lt_of_pos x (show (0 : Int) < s by omega)
  omega

theorem getUnit_nat {S : Box.Size} (hS : S.Pos) (c : Box.IV) : getUnit S c = (uOf S c : Int) := by
  rw [getUnit_eq hS]
  unfold uOf
  push_cast
  rw [(emod_lt hS.1 c.x).2, (emod_lt hS.2.1 c.y).2, (emod_lt hS.2.2 c.z).2]

theorem getUnit_toNat {S : Box.Size} (hS : S.Pos) (c : Box.IV) : (getUnit S c).toNat = uOf S c := by
  rw [getUnit_nat hS]; simp

theorem idx_lt {a b c x y z : Nat} (hx : x < a) (hy : y < b) (hz : z < c) : (x * b + y) * c + z < a * b * c := by
  have h1 : x * b + y + 1 ≤ a * b := by
    have : (x + 1) * b ≤ a * b := Nat.mul_le_mul_right _ hx
    have e : (x + 1) * b = x * b + b := by ring
    omega
  have h2 : (x * b + y + 1) * c ≤ a * b * c := Nat.mul_le_mul_right _ h1
  have e : (x * b + y + 1) * c = (x * b + y) * c + c := by ring
  omega

theorem idx_div {b c x y z : Nat} (hy : y < b) (hz : z < c) :
    ((x * b + y) * c + z) / c = x * b + y ∧ ((x * b + y) * c + z) % c = z ∧ (x * b + y) / b = x ∧ (x * b + y) % b = y := by
  refine ⟨?_, ?_, ?_, ?_⟩
  · rw [mul_comm, Nat.mul_add_div (by omega), Nat.div_eq_of_lt hz, add_zero]
  · rw [mul_comm, Nat.mul_add_mod, Nat.mod_eq_of_lt hz]
  · rw [mul_comm, Nat.mul_add_div (by omega), Nat.div_eq_of_lt hy, add_zero]
  · rw [mul_comm, Nat.mul_add_mod, Nat.mod_eq_of_lt hy]

theorem uOf_lt {S : Box.Size} (hS : S.Pos) (c : Box.IV) : uOf S c < prodSup S :=
  idx_lt (emod_lt hS.1 c.x).1 (emod_lt hS.2.1 c.y).1 (emod_lt hS.2.2 c.z).1

theorem getCell_uOf {S : Box.Size} (hS : S.Pos) (c : Box.IV) :
    getCell S (uOf S c : Int) = ⟨c.x % (S.s0 : Int), c.y % (S.s1 : Int), c.z % (S.s2 : Int)⟩ := by
  rw [getCell_nat]
  obtain ⟨h1, h2, h3, h4⟩ := idx_div (x := (c.x % (S.s0 : Int)).toNat) (emod_lt hS.2.1 c.y).1 (emod_lt hS.2.2 c.z).1
  unfold uOf
  rw [h1, h2, h3, h4, (emod_lt hS.1 c.x).2, (emod_lt hS.2.1 c.y).2, (emod_lt hS.2.2 c.z).2]

theorem uOf_getCell {S : Box.Size} (hS : S.Pos) {u : Nat} (hu : u < prodSup S) : uOf S (getCell S u) = u := by
  rw [getCell_nat]
  unfold uOf
  have h0 : u / S.s2 / S.s1 < S.s0 := by
    rw [Nat.div_div_eq_div_mul, Nat.div_lt_iff_lt_mul (Nat.mul_pos hS.2.2 hS.2.1)]
    unfold prodSup at hu
    calc u < S.s0 * S.s1 * S.s2 := hu
      _ = _ := by ring
  simp only [← Int.natCast_mod, Int.toNat_natCast]
  rw [Nat.mod_eq_of_lt h0, Nat.mod_mod, Nat.mod_mod]
  rw [Nat.mul_comm (u / S.s2 / S.s1), Nat.div_add_mod, Nat.mul_comm, Nat.div_add_mod]

theorem emod_iff (s : Nat) (x y : Int) : x % (s : Int) = y % (s : Int) ↔ (s : Int) ∣ x - y :=
  ⟨fun h => Int.ModEq.dvd (show y ≡ x [ZMOD s] from h.symm), fun h => ((Int.modEq_iff_dvd).2 h).symm⟩

theorem uOf_eq_iff {S : Box.Size} (hS : S.Pos) (c c' : Box.IV) : uOf S c = uOf S c' ↔ SameCell S c c' := by
  unfold SameCell
  simp only [← emod_iff]
  constructor
  · intro h
    have e := getCell_uOf hS c
    rw [h, getCell_uOf hS c'] at e
    have := Box.IV.mk.inj e
    exact ⟨this.1.symm, this.2.1.symm, this.2.2.symm⟩
  · rintro ⟨h0, h1, h2⟩
    unfold uOf
    rw [h0, h1, h2]

/-- Index of the opposite cell. -/
def negU (S : Box.Size) (u : Nat) : Nat := uOf S (opp (getCell S u))

theorem negU_lt {S : Box.Size} (hS : S.Pos) (u : Nat) : negU S u < prodSup S := uOf_lt hS _

theorem uOf_opp {S : Box.Size} (hS : S.Pos) (c : Box.IV) : uOf S (opp c) = negU S (uOf S c) := by
  unfold negU
  rw [uOf_eq_iff hS, getCell_uOf hS]
  have h : ∀ (s : Nat) (x : Int), (s : Int) ∣ -x - -(x % (s : Int)) := fun s x =>
    ⟨-(x / (s : Int)), by have := Int.mul_ediv_add_emod x s; linear_combination this⟩
  exact ⟨h _ _, h _ _, h _ _⟩

theorem opp_opp (c : Box.IV) : opp (opp c) = c := by simp [opp]

theorem negU_negU {S : Box.Size} (hS : S.Pos) {u : Nat} (hu : u < prodSup S) : negU S (negU S u) = u := by
  conv_lhs => rw [negU, negU]
  have := uOf_opp hS (opp (getCell S u))
  rw [opp_opp, uOf_getCell hS hu] at this
  exact this.symm

theorem sum_negU {M : Type*} [AddCommMonoid M] {S : Box.Size} (hS : S.Pos) (f : Nat → M) :
    ∑ u ∈ Finset.range (prodSup S), f (negU S u) = ∑ u ∈ Finset.range (prodSup S), f u := by
  refine Finset.sum_nbij' (negU S) (negU S) ?_ ?_ ?_ ?_ ?_
  · intro u _; exact Finset.mem_range.2 (negU_lt hS u)
  · intro u _; exact Finset.mem_range.2 (negU_lt hS u)
  · intro u hu; exact negU_negU hS (Finset.mem_range.1 hu)
  · intro u hu; exact negU_negU hS (Finset.mem_range.1 hu)
  · intro u _; rfl

/-! ### Transform over cells -/

theorem cis_exp (x : ℝ) : cis x = Complex.exp (x * Complex.I) := by
  rw [Complex.exp_mul_I]
  apply Complex.ext
  · simp [cis, Complex.cos_ofReal_re, Complex.sin_ofReal_im]
  · simp [cis, Complex.cos_ofReal_im, Complex.sin_ofReal_re]

theorem phase_ph {S : Box.Size} (R k : Nat) : phase S R k =
    ph S.s0 (getCell S k).x (getCell S R).x * ph S.s1 (getCell S k).y (getCell S R).y * ph S.s2 (getCell S k).z (getCell S R).z := by
  unfold phase ph
  simp only [cis_exp]
  rw [← Complex.exp_add, ← Complex.exp_add]
  congr 1
  push_cast
  ring

/-- Phase of a cell that need not be in the supercell. -/
def phaseC (S : Box.Size) (c : Box.IV) (k : Nat) : ℂ :=
  ph S.s0 (getCell S k).x c.x * ph S.s1 (getCell S k).y c.y * ph S.s2 (getCell S k).z c.z

theorem phaseC_add (S : Box.Size) (c c' : Box.IV) (k : Nat) : phaseC S ⟨c.x + c'.x, c.y + c'.y, c.z + c'.z⟩ k = phaseC S c k * phaseC S c' k := by
  unfold phaseC
  simp only [ExCorr.ph_add]
  ring

theorem phaseC_star (S : Box.Size) (c : Box.IV) (k : Nat) : star (phaseC S c k) = phaseC S (opp c) k := by
  unfold phaseC opp
  rw [star_mul', star_mul']
  exact congrArg₂ _ (congrArg₂ _ (ExCorr.ph_conj _ _ _) (ExCorr.ph_conj _ _ _)) (ExCorr.ph_conj _ _ _)

theorem ph_congr {s : Nat} (hs : 0 < s) (a x y : Int) (h : (s : Int) ∣ x - y) : ph s a x = ph s a y := by
  rw [show x = y + (x - y) by ring, ExCorr.ph_add, ExCorr.ph_dvd s hs a _ h, mul_one]

theorem phaseC_congr {S : Box.Size} (hS : S.Pos) (c c' : Box.IV) (h : SameCell S c c') (k : Nat) : phaseC S c k = phaseC S c' k := by
  unfold phaseC
  rw [ph_congr hS.1 _ _ _ h.1, ph_congr hS.2.1 _ _ _ h.2.1, ph_congr hS.2.2 _ _ _ h.2.2]

theorem sameCell_getCell {S : Box.Size} (hS : S.Pos) (c : Box.IV) : SameCell S (getCell S (uOf S c)) c :=
  (uOf_eq_iff hS _ _).1 (uOf_getCell hS (uOf_lt hS c))

theorem phase_uOf {S : Box.Size} (hS : S.Pos) (c : Box.IV) (k : Nat) : phase S (uOf S c) k = phaseC S c k := by
  rw [phase_ph]
  exact phaseC_congr hS _ _ (sameCell_getCell hS c) k

theorem phase_negU {S : Box.Size} (hS : S.Pos) (u k : Nat) : phase S (negU S u) k = star (phase S u k) := by
  unfold negU
  rw [phase_uOf hS, ← phaseC_star, phase_ph]
  rfl

theorem phase_zero (S : Box.Size) (R : Nat) : phase S R 0 = 1 := by
  rw [phase_ph, getCell_nat]
  simp [ph]

open Classical in
theorem phaseC_sum {S : Box.Size} (hS : S.Pos) (c : Box.IV) :
    ∑ k ∈ Finset.range (prodSup S), phaseC S c k = if SameCell S c ⟨0, 0, 0⟩ then (prodSup S : ℂ) else 0 := by
  have h : ∑ k ∈ Finset.range (prodSup S), phaseC S c k =
      (∑ x ∈ Finset.range S.s0, ph S.s0 x c.x) * (∑ y ∈ Finset.range S.s1, ph S.s1 y c.y) * ∑ z ∈ Finset.range S.s2, ph S.s2 z c.z := by
    unfold prodSup
    rw [Box.sum_range_mul', Box.sum_range_mul', Finset.sum_mul_sum, Finset.sum_mul]
    refine Finset.sum_congr rfl fun x _ => ?_
    rw [Finset.sum_mul_sum]
    refine Finset.sum_congr rfl fun y hy => Finset.sum_congr rfl fun z hz => ?_
    obtain ⟨h1, h2, h3, h4⟩ := idx_div (x := x) (Finset.mem_range.1 hy) (Finset.mem_range.1 hz)
    unfold phaseC
    rw [getCell_nat, h1, h2, h3, h4]
  rw [h, ExCorr.ph_sum _ hS.1, ExCorr.ph_sum _ hS.2.1, ExCorr.ph_sum _ hS.2.2]
  unfold SameCell prodSup
  simp only [sub_zero]
  by_cases h0 : (S.s0 : Int) ∣ c.x <;> by_cases h1 : (S.s1 : Int) ∣ c.y <;> by_cases h2 : (S.s2 : Int) ∣ c.z <;> simp [h0, h1, h2]

theorem phase_orth {S : Box.Size} (hS : S.Pos) {R R' : Nat} (hR : R < prodSup S) (hR' : R' < prodSup S) :
    ∑ k ∈ Finset.range (prodSup S), phase S R k * star (phase S R' k) = if R = R' then (prodSup S : ℂ) else 0 := by
  have h : ∀ k, phase S R k * star (phase S R' k) =
      phaseC S ⟨(getCell S R).x + (opp (getCell S R')).x, (getCell S R).y + (opp (getCell S R')).y, (getCell S R).z + (opp (getCell S R')).z⟩ k := by
    intro k
    rw [phaseC_add, ← phaseC_star, phase_ph, phase_ph]
    rfl
  simp only [h]
  rw [phaseC_sum hS]
  have e : SameCell S ⟨(getCell S R).x + (opp (getCell S R')).x, (getCell S R).y + (opp (getCell S R')).y, (getCell S R).z + (opp (getCell S R')).z⟩ ⟨0, 0, 0⟩
      ↔ R = R' := by
    have := uOf_eq_iff hS (getCell S R) (getCell S R')
    rw [uOf_getCell hS hR, uOf_getCell hS hR'] at this
    rw [this]
    unfold SameCell opp
    simp only [sub_eq_add_neg]
    simp
  simp only [e]

theorem prodSup_pos {S : Box.Size} (hS : S.Pos) : 0 < prodSup S := Nat.mul_pos (Nat.mul_pos hS.1 hS.2.1) hS.2.2

variable {n : Nat}

theorem fromK_toK {S : Box.Size} (hS : S.Pos) (F : Grads n) (i j : Mode n) {R : Nat} (hR : R < prodSup S) :
    fromK S (toK S F) i j R = (F i j R : ℂ) := by
  simp only [fromK, toK, Matrix.of_apply]
  have hp : (prodSup S : ℂ) ≠ 0 := by exact_mod_cast (prodSup_pos hS).ne'
  have : ∑ k ∈ Finset.range (prodSup S), (∑ R' ∈ Finset.range (prodSup S), (F i j R' : ℂ) * phase S R' k) * star (phase S R k) = F i j R * prodSup S := by
    calc _ = ∑ R' ∈ Finset.range (prodSup S), (F i j R' : ℂ) * ∑ k ∈ Finset.range (prodSup S), phase S R' k * star (phase S R k) := by
          simp only [Finset.sum_mul, Finset.mul_sum]
          rw [Finset.sum_comm]
          refine Finset.sum_congr rfl fun R' _ => Finset.sum_congr rfl fun k _ => by ring
      _ = ∑ R' ∈ Finset.range (prodSup S), if R' = R then (F i j R' : ℂ) * prodSup S else 0 := by
          refine Finset.sum_congr rfl fun R' hR' => ?_
          rw [phase_orth hS (Finset.mem_range.1 hR') hR]
          split <;> simp
      _ = _ := by rw [Finset.sum_ite_eq' ]; simp [hR]
  rw [this]
  field_simp

/-- The part that does not depend on the order of the derivatives. -/
def symF (S : Box.Size) (F : Grads n) : Grads n := fun i j R => (F i j R + F j i (negU S R)) / 2

theorem toK_symF {S : Box.Size} (hS : S.Pos) (F : Grads n) (k : Nat) : daggerSymm (toK S F k) = toK S (symF S F) k := by
  ext j i
  unfold daggerSymm
  rw [Matrix.smul_apply, Matrix.add_apply, Matrix.conjTranspose_apply]
  simp only [toK, symF, Matrix.of_apply]
  have h : star (∑ R ∈ Finset.range (prodSup S), (F j i R : ℂ) * phase S R k) = ∑ R ∈ Finset.range (prodSup S), (F j i (negU S R) : ℂ) * phase S R k := by
    rw [star_sum, ← sum_negU hS]
    refine Finset.sum_congr rfl fun R hR => ?_
    rw [star_mul', phase_negU hS, star_star]
    congr 1
    exact Complex.conj_ofReal _
  rw [h, ← Finset.sum_add_distrib, Finset.smul_sum]
  refine Finset.sum_congr rfl fun R _ => ?_
  push_cast
  rw [smul_eq_mul]
  ring

/-- Double sum - row sum - column sum. -/
def msum (X : Mode n → Mode n → ℝ) : Mode n → Mode n → ℝ := fun i j =>
  1 / (n : ℝ) * (1 / (n : ℝ) * ∑ a, ∑ b, X (a, i.2) (b, j.2)) - 1 / (n : ℝ) * (∑ b, X i (b, j.2)) - 1 / (n : ℝ) * ∑ a, X (a, i.2) j

theorem proj_apply (m m' : Mode n) : proj n m m' = if m.2 = m'.2 then (1 / (n : ℂ)) else 0 := by
  unfold proj mask
  simp only [Matrix.smul_apply, Matrix.mul_apply, Matrix.conjTranspose_apply, Matrix.of_apply]
  rw [Finset.sum_eq_single m.2]
  · simp only [ if_true, one_mul, smul_eq_mul]
    by_cases h : m.2 = m'.2
    · rw [if_pos h, if_pos h.symm]; simp
    · rw [if_neg h, if_neg fun e => h e.symm]; simp
  · intro d _ hd
    rw [if_neg fun e => hd e.symm, zero_mul]
  · simp

theorem mul_proj (A : Matrix (Mode n) (Mode n) ℂ) (i j : Mode n) : (A * proj n) i j = 1 / (n : ℂ) * ∑ b, A i (b, j.2) := by
  rw [Matrix.mul_apply, Fintype.sum_prod_type, Finset.mul_sum]
  refine Finset.sum_congr rfl fun b _ => ?_
  rw [Finset.sum_eq_single j.2]
  · rw [proj_apply]; simp [mul_comm]
  · intro d _ hd; rw [proj_apply, if_neg hd, mul_zero]
  · simp

theorem proj_mul (A : Matrix (Mode n) (Mode n) ℂ) (i j : Mode n) : (proj n * A) i j = 1 / (n : ℂ) * ∑ a, A (a, i.2) j := by
  rw [Matrix.mul_apply, Fintype.sum_prod_type, Finset.mul_sum]
  refine Finset.sum_congr rfl fun b _ => ?_
  rw [Finset.sum_eq_single i.2]
  · rw [proj_apply]; simp
  · intro d _ hd; rw [proj_apply, if_neg (fun e => hd e.symm), zero_mul]
  · simp

theorem sums_eq (X : Mode n → Mode n → ℝ) (i j : Mode n) : sums (.of fun i j => (X i j : ℂ)) i j = (msum X i j : ℂ) := by
  unfold sums msum
  rw [Matrix.sub_apply, Matrix.sub_apply, mul_proj, mul_proj, proj_mul]
  simp only [proj_mul, Matrix.of_apply]
  push_cast
  congr 2
  simp only [← Finset.mul_sum]
  rw [Finset.sum_comm]

theorem msum_swap (X : Mode n → Mode n → ℝ) (i j : Mode n) : msum (fun j i => X i j) j i = msum X i j := by
  unfold msum
  rw [Finset.sum_comm]
  ring

theorem dgradSymmetrize_eq {S : Box.Size} (hS : S.Pos) (F : Grads n) (i j : Mode n) {R : Nat} (hR : R < prodSup S) :
    fromK S (fun k => fixK k (toK S F k)) i j R =
      ((symF S F i j R + msum (fun i j => ∑ R ∈ Finset.range (prodSup S), symF S F i j R) i j * (1 / (prodSup S : ℝ)) : ℝ) : ℂ) := by
  have h0 : ∀ k, fixK k (toK S F k) j i = toK S (symF S F) k j i + if k = 0 then sums (toK S (symF S F) 0) j i else 0 := by
    intro k
    unfold fixK
    simp only [toK_symF hS]
    by_cases hk : k = 0
    · subst hk; rw [if_pos rfl, if_pos rfl]; rfl
    · rw [if_neg hk, if_neg hk, add_zero]
  have h1 : sums (toK S (symF S F) 0) j i = (msum (fun i j => ∑ R ∈ Finset.range (prodSup S), symF S F i j R) i j : ℂ) := by
    rw [← msum_swap, ← sums_eq]
    congr 2
    funext j i
    simp only [toK, phase_zero, mul_one, Matrix.of_apply]
    push_cast
    rfl
  have h2 := fromK_toK hS (symF S F) i j hR
  unfold fromK at h2 ⊢
  simp only [h0, add_mul, Finset.sum_add_distrib]
  rw [h2, h1]
  push_cast
  congr 2
  rw [Finset.sum_eq_single 0]
  · rw [if_pos rfl, phase_zero]; simp
  · intro k _ hk; rw [if_neg hk, zero_mul]
  · intro h; exact absurd (Finset.mem_range.2 (prodSup_pos hS)) h

theorem msum_row (X : Mode n → Mode n → ℝ) (i : Mode n) (d : Fin 3) : ∑ b, (X i (b, d) + msum X i (b, d)) = 0 := by
  have hn : (n : ℝ) ≠ 0 := by have := i.1.pos; positivity
  unfold msum
  simp only [Finset.sum_add_distrib, Finset.sum_sub_distrib, Finset.sum_const, Finset.card_univ, Fintype.card_fin, nsmul_eq_mul, ← Finset.mul_sum]
  rw [Finset.sum_comm (f := fun b a => X (a, i.2) (b, d))]
  field_simp
  ring

theorem msum_col (X : Mode n → Mode n → ℝ) (i : Mode n) (d : Fin 3) : ∑ a, (X (a, d) i + msum X (a, d) i) = 0 := by
  have := msum_row (fun j i => X i j) i d
  simpa only [msum_swap] using this

end
end Jdftx.Phonon
