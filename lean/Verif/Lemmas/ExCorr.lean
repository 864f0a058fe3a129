import Verif.Spec.ExCorr
import Verif.Props.TaskDivision
import Verif.Props.SpinDiag
import Mathlib.Analysis.Calculus.Deriv.Add

/-!
# Lemmas for C74
-/
namespace Jdftx.ExCorr
open Box SpinDiag
open scoped ComplexConjugate
noncomputable section

/-! ### Sharing work -/

theorem mine_sum (N P i : Nat) (hP : 0 < P) (hi : i < N) {A : Type} [AddCommMonoid A] (a : A) :
    (∑ p ∈ Finset.range P, if mine N P p i then a else 0) = a := by
  obtain ⟨td, _, hw, h⟩ := TaskDiv.C01_owner N P i 0 hi hP
  have e : ∀ p ∈ Finset.range P, (if mine N P p i then a else 0) = if p = td.whose i then a else 0 := by
    intro p hp
    have hp := Finset.mem_range.1 hp
    obtain ⟨tdp, hinit, _⟩ := TaskDiv.C01_owner N P i p hi hp
    have := h p tdp hinit hp
    simp only [mine, hinit]
    by_cases hq : p = td.whose i
    · rw [if_pos (this.2 hq), if_pos hq]
    · rw [if_neg (fun hc => hq (this.1 hc)), if_neg hq]
  rw [Finset.sum_congr rfl e, Finset.sum_ite_eq', if_pos (Finset.mem_range.2 hw)]

theorem mine_one (N i : Nat) (hi : i < N) : mine N 1 0 i = true := by
  have := mine_sum N 1 i one_pos hi (1 : ℝ)
  rw [Finset.sum_range_one] at this
  by_contra h
  rw [if_neg h] at this
  norm_num at this

/-! ### Fourier transforms -/

/-- A multiplier in reciprocal space. -/
def mult (M : Nat → ℂ) (X : Arr) : Arr := fun i => X i * M i.toNat

theorem mult_adjoint (S : Size) (M : Nat → ℂ) (u f : Field) :
    ∑ j ∈ Finset.range (nr S), u j * fftI S (mult M (fftJ S f)) j
      = ∑ j ∈ Finset.range (nr S), Jdag S (mult (fun i => conj (M i)) (Idag S u)) j * f j := by
  have e1 : ∀ j, u j * fftI S (mult M (fftJ S f)) j = ∑ i ∈ Finset.range (nG S), ∑ j' ∈ Finset.range (nr S),
      weight S i * (1 / (nr S : ℝ)) * u j * f j' * (conj (chi S i j') * M i * chi S i j).re := by
    intro j
    simp only [fftI, mult, fftJ, Idag, Int.toNat_natCast, Finset.mul_sum]
    refine Finset.sum_congr rfl fun i _ => ?_
    rw [Finset.sum_mul, Finset.sum_mul, Complex.re_sum, Finset.mul_sum, Finset.mul_sum]
    refine Finset.sum_congr rfl fun j' _ => ?_
    have : (((1 / (nr S : ℝ) : ℝ) : ℂ) * ((f j' : ℂ) * conj (chi S i j')) * M i * chi S i j)
        = ((1 / (nr S : ℝ) * f j' : ℝ) : ℂ) * (conj (chi S i j') * M i * chi S i j) := by push_cast; ring
    rw [this, Complex.re_ofReal_mul]
    ring
  have e2 : ∀ j', Jdag S (mult (fun i => conj (M i)) (Idag S u)) j' * f j' = ∑ i ∈ Finset.range (nG S), ∑ j ∈ Finset.range (nr S),
      weight S i * (1 / (nr S : ℝ)) * u j * f j' * (conj (chi S i j) * conj (M i) * chi S i j').re := by
    intro j'
    simp only [Jdag, fftI, mult, Idag, Int.toNat_natCast, Finset.mul_sum, Finset.sum_mul]
    refine Finset.sum_congr rfl fun i _ => ?_
    rw [Complex.re_sum, Finset.mul_sum, Finset.mul_sum, Finset.sum_mul]
    refine Finset.sum_congr rfl fun j _ => ?_
    have : ((u j : ℂ) * conj (chi S i j) * conj (M i) * chi S i j')
        = ((u j : ℝ) : ℂ) * (conj (chi S i j) * conj (M i) * chi S i j') := by ring
    rw [this, Complex.re_ofReal_mul]
    ring
  simp only [e1, e2]
  rw [Finset.sum_comm]
  conv_rhs => rw [Finset.sum_comm]
  refine Finset.sum_congr rfl fun i _ => ?_
  rw [Finset.sum_comm]
  refine Finset.sum_congr rfl fun j _ => Finset.sum_congr rfl fun j' _ => ?_
  have : (conj (chi S i j) * M i * chi S i j').re = (conj (chi S i j') * conj (M i) * chi S i j).re := by
    rw [← Complex.conj_re]; simp only [map_mul, Complex.conj_conj]
    congr 1; ring
  rw [this]

theorem opD_mult (g : Grid) (X : Arr) (k : Fin 3) : opD g X k = mult (fun i => ⟨0, gvec g.G (hStart g.S i) k⟩) X := rfl

theorem opL_mult (g : Grid) (X : Arr) :
    opL g X = mult (fun i => ((-g.detR * ∑ k, gvec g.G (hStart g.S i) k ^ 2 : ℝ) : ℂ)) X := rfl

theorem fftI_smul (S : Size) (c : ℝ) (X : Arr) (j : Nat) : fftI S (fun i => (c : ℂ) * X i) j = c * fftI S X j := by
  simp only [fftI, Finset.mul_sum]
  refine Finset.sum_congr rfl fun i _ => ?_
  rw [mul_assoc, Complex.re_ofReal_mul]; ring

theorem fftI_neg (S : Size) (X : Arr) (j : Nat) : fftI S (fun i => -X i) j = -fftI S X j := by
  have := fftI_smul S (-1) X j
  simpa using this

theorem fftI_add (S : Size) (X Y : Arr) (j : Nat) : fftI S (fun i => X i + Y i) j = fftI S X j + fftI S Y j := by
  simp only [fftI, ← Finset.sum_add_distrib]
  refine Finset.sum_congr rfl fun i _ => ?_
  rw [add_mul, Complex.add_re, mul_add]

theorem fftI_sum (S : Size) {α : Type} (s : Finset α) (X : α → Arr) (j : Nat) :
    fftI S (fun i => ∑ a ∈ s, X a i) j = ∑ a ∈ s, fftI S (X a) j := by
  classical
  induction s using Finset.induction_on with
  | empty => simp [fftI]
  | insert a s ha ih => simp only [Finset.sum_insert ha, fftI_add, ih]

theorem fftJ_moved (S : Size) (f d : Field) (t : ℝ) :
    fftJ S (fun j => f j + t * d j) = fun i => fftJ S f i + (t : ℂ) * fftJ S d i := by
  funext i
  simp only [fftJ, Idag, Finset.mul_sum, ← Finset.sum_add_distrib]
  refine Finset.sum_congr rfl fun j _ => ?_
  push_cast; ring

theorem spatialD_moved (g : Grid) (f d : Field) (t : ℝ) (k : Fin 3) (j : Nat) :
    spatialD g (fun j => f j + t * d j) k j = spatialD g f k j + t * spatialD g d k j := by
  simp only [spatialD, fftJ_moved]
  rw [← fftI_smul, ← fftI_add]
  congr 1; funext i; simp only [opD]; ring

theorem laplacian_moved (g : Grid) (f d : Field) (t : ℝ) (j : Nat) :
    laplacian g (fun j => f j + t * d j) j = laplacian g f j + t * laplacian g d j := by
  simp only [laplacian, fftJ_moved]
  have : opL g (fun i => fftJ g.S f i + (t : ℂ) * fftJ g.S d i) = fun i => opL g (fftJ g.S f) i + (t : ℂ) * opL g (fftJ g.S d) i := by
    funext i; simp only [opL]; ring
  rw [this, fftI_add, fftI_smul]; ring

theorem spatialD_adjoint (g : Grid) (u d : Field) (k : Fin 3) :
    ∑ j ∈ Finset.range (nr g.S), u j * spatialD g d k j
      = ∑ j ∈ Finset.range (nr g.S), Jdag g.S (fun i => -opD g (Idag g.S u) k i) j * d j := by
  simp only [spatialD, opD_mult]
  rw [mult_adjoint]
  refine Finset.sum_congr rfl fun j _ => ?_
  congr 2
  funext i
  simp only [mult]
  have : conj (⟨0, gvec g.G (hStart g.S i.toNat) k⟩ : ℂ) = -⟨0, gvec g.G (hStart g.S i.toNat) k⟩ := by
    apply Complex.ext <;> simp
  rw [this]; ring

theorem laplacian_adjoint (g : Grid) (u d : Field) :
    ∑ j ∈ Finset.range (nr g.S), u j * laplacian g d j
      = ∑ j ∈ Finset.range (nr g.S), Jdag g.S (fun i => (1 / g.detR : ℝ) * opL g (Idag g.S u) i) j * d j := by
  simp only [laplacian, opL_mult]
  have e : ∀ j, u j * (1 / g.detR * fftI g.S (mult (fun i => ((-g.detR * ∑ k, gvec g.G (hStart g.S i) k ^ 2 : ℝ) : ℂ)) (fftJ g.S d)) j)
      = 1 / g.detR * (u j * fftI g.S (mult (fun i => ((-g.detR * ∑ k, gvec g.G (hStart g.S i) k ^ 2 : ℝ) : ℂ)) (fftJ g.S d)) j) := by
    intro j; ring
  simp only [e]
  rw [← Finset.mul_sum, mult_adjoint, Finset.mul_sum]
  refine Finset.sum_congr rfl fun j _ => ?_
  simp only [Complex.conj_ofReal, Jdag, fftI_smul]
  ring

/-! ### Spin modes -/

theorem backSelf_eq (m : Mode) (n : Fin (nIn m) → ℝ) (E : Fin (nCount m) → ℝ) (s : Fin (nIn m)) :
    backSelf m n E s = backN m n n E s + backX m n n E s := by
  cases m with
  | unpolarized => simp [backSelf, backN, backX]
  | polarized => simp [backSelf, backN, backX]
  | noncollinear =>
    simp only [backSelf, backN, backX, diagonalizeGradSelf, diagonalizeGrad, accum]
    match s with
    | 0 | 1 | 2 => simp
    | 3 => simp [sub_eq_add_neg]

/-- Derivative of the transformation along a curve, and what the propagation makes of it. -/
theorem toDiag_deriv (m : Mode) (n x : ℝ → Fin (nIn m) → ℝ) (n' x' : Fin (nIn m) → ℝ)
    (hn : ∀ s, HasDerivAt (fun t => n t s) (n' s) 0) (hx : ∀ s, HasDerivAt (fun t => x t s) (x' s) 0) :
    ∃ d : Fin (nCount m) → ℝ, (∀ s, HasDerivAt (fun t => toDiag m (n t) (x t) s) (d s) 0) ∧
      ∀ E : Fin (nCount m) → ℝ, ∑ s, E s * d s = ∑ s, backN m (n 0) (x 0) E s * n' s + ∑ s, backX m (n 0) (x 0) E s * x' s := by
  cases m with
  | unpolarized => exact ⟨x', hx, fun E => by simp [backN, backX]⟩
  | polarized => exact ⟨x', hx, fun E => by simp [backN, backX]⟩
  | noncollinear =>
    refine ⟨_, diag_deriv hn hx, fun E => ?_⟩
    simp only [backN, backX, diagonalizeGrad, accum, gradN, Fin.sum_univ_four, Fin.sum_univ_two, Matrix.cons_val_zero, Matrix.cons_val_one, Matrix.cons_val,
      scalarPart, dot, vectorPart, if_true, one_ne_zero, if_false]
    ring

/-- The contraction and its derivative. -/
theorem sigmaTerm_deriv (m : Mode) (D : ℝ → Fin (nCount m) → ℝ) (D' : Fin (nCount m) → ℝ)
    (hD : ∀ s, HasDerivAt (fun t => D t s) (D' s) 0) :
    ∃ d : Fin 3 → ℝ, (∀ q, HasDerivAt (fun t => sigmaTerm (D t) q) (d q) 0) ∧
      ∀ E : Fin 3 → ℝ, ∑ q, E q * d q = ∑ s, E_Dn E (D 0) s * D' s := by
  refine ⟨fun q => ∑ s1, ∑ s2, if s1 ≤ s2 ∧ s1.val + s2.val = q.val then D' s1 * D 0 s2 + D 0 s1 * D' s2 else 0, fun q => ?_, fun E => ?_⟩
  · simp only [sigmaTerm]
    refine HasDerivAt.fun_sum fun s1 _ => HasDerivAt.fun_sum fun s2 _ => ?_
    split
    · exact (hD s1).mul (hD s2)
    · exact hasDerivAt_const _ _
  · cases m with
    | unpolarized =>
      simp [E_Dn, Fin.sum_univ_three, Fin.ofNat]
      ring
    | polarized =>
      simp [E_Dn, Fin.sum_univ_three, Fin.sum_univ_two, Fin.ofNat]
      ring
    | noncollinear =>
      simp [E_Dn, Fin.sum_univ_three, Fin.sum_univ_two, Fin.ofNat]
      ring

end
end Jdftx.ExCorr
