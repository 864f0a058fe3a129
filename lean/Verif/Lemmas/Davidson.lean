import Verif.Spec.Davidson
import Verif.Lemmas.ElecMinStd
import Mathlib.LinearAlgebra.FiniteDimensional.Lemmas
import Mathlib.Data.Fin.Tuple.Sort

/-! # Lemmas on subspace eigenvalue problems -/
set_option linter.unusedSectionVars false
namespace Jdftx.Davidson
open Matrix Jdftx.ElecMin Jdftx.MatFn ComplexConjugate
open scoped ComplexOrder
noncomputable section

variable {B P : Type} [Fintype B] {n m k : ℕ}

theorem quad_diag (e : Fin n → ℝ) (x : Fin n → ℂ) : (star x ⬝ᵥ (diagonal (fun b => (e b : ℂ)) *ᵥ x)).re = ∑ b, e b * Complex.normSq (x b) := by
  simp only [dotProduct, mulVec_diagonal, Pi.star_apply, Complex.star_def, Complex.re_sum]
  refine Finset.sum_congr rfl fun b _ => ?_
  simp [Complex.normSq_apply, Complex.mul_re, Complex.mul_im]
  ring

theorem quad_one (x : Fin n → ℂ) : (star x ⬝ᵥ x).re = ∑ b, Complex.normSq (x b) := by
  simp only [dotProduct, Pi.star_apply, Complex.star_def, Complex.re_sum]
  refine Finset.sum_congr rfl fun b _ => ?_
  simp [Complex.normSq_apply, Complex.mul_re]

/-- Eigenvalues in a subspace lie above those in a larger one. -/
theorem interlace_diag {lam : Fin n → ℝ} {mu : Fin k → ℝ} (hl : Monotone lam) (hm : Monotone mu) {Y : Matrix (Fin n) (Fin k) ℂ} (h1 : Yᴴ * Y = 1)
    (hd : Yᴴ * (diagonal (fun b => (lam b : ℂ)) * Y) = diagonal fun b => (mu b : ℂ)) (b : ℕ) (hb : b < k) (hn : b < n) : lam ⟨b, hn⟩ ≤ mu ⟨b, hb⟩ := by
  let M : Matrix (Fin b) (Fin (b + 1)) ℂ := Matrix.of fun i j => Y ⟨i, i.2.trans hn⟩ ⟨j, by omega⟩
  have hker : LinearMap.ker M.mulVecLin ≠ ⊥ := LinearMap.ker_ne_bot_of_finrank_lt (by simp)
  obtain ⟨a, ha, ha0⟩ := Submodule.exists_mem_ne_zero_of_ne_bot hker
  have hMa : M *ᵥ a = 0 := ha
  let x : Fin k → ℂ := fun j => if h : j.val < b + 1 then a ⟨j, h⟩ else 0
  have hxp : ∀ (j : Fin k) (h : j.val < b + 1), x j = a ⟨j, h⟩ := fun j h => dif_pos h
  have hxn : ∀ j : Fin k, ¬ j.val < b + 1 → x j = 0 := fun j h => dif_neg h
  have hx0 : x ≠ 0 := by
    intro h
    apply ha0
    funext j
    exact (hxp ⟨j, by omega⟩ j.2).symm.trans (congrFun h _)
  let y : Fin n → ℂ := Y *ᵥ x
  have hy : ∀ i : Fin n, i.val < b → y i = 0 := by
    intro i hi
    refine Eq.trans ?_ (congrFun hMa ⟨i, hi⟩)
    show ∑ j, Y i j * x j = ∑ j, M ⟨i, hi⟩ j * a j
    rw [← Finset.sum_subset (Finset.subset_univ (Finset.univ.filter fun j : Fin k => j.val < b + 1)) (fun j _ hj => by
      have : ¬ j.val < b + 1 := by simpa using hj
      rw [hxn j this, mul_zero])]
    symm
    refine Finset.sum_bij (fun (j : Fin (b + 1)) _ => (⟨j, by omega⟩ : Fin k)) (fun j _ => Finset.mem_filter.2 ⟨Finset.mem_univ _, j.2⟩) (fun i _ j _ h => by simpa [Fin.ext_iff] using h) (fun j hj => ?_) (fun j _ => ?_)
    · have : j.val < b + 1 := by simpa using hj
      exact ⟨⟨j, this⟩, Finset.mem_univ _, rfl⟩
    · rw [hxp _ j.2]; rfl
  have e1 : ∑ i, Complex.normSq (y i) = ∑ j, Complex.normSq (x j) := by
    rw [← quad_one, ← quad_one]
    congr 1
    show star (Y *ᵥ x) ⬝ᵥ (Y *ᵥ x) = _
    rw [star_mulVec, ← dotProduct_mulVec, mulVec_mulVec, h1, one_mulVec]
  have e2 : ∑ i, lam i * Complex.normSq (y i) = ∑ j, mu j * Complex.normSq (x j) := by
    rw [← quad_diag, ← quad_diag, ← hd]
    congr 1
    show star (Y *ᵥ x) ⬝ᵥ _ = _
    rw [star_mulVec, ← dotProduct_mulVec]
    simp only [y, mulVec_mulVec]
  have hpos : 0 < ∑ j, Complex.normSq (x j) := by
    obtain ⟨j, hj⟩ := Function.ne_iff.1 hx0
    exact Finset.sum_pos' (fun _ _ => Complex.normSq_nonneg _) ⟨j, Finset.mem_univ _, Complex.normSq_pos.2 hj⟩
  have g1 : lam ⟨b, hn⟩ * ∑ i, Complex.normSq (y i) ≤ ∑ i, lam i * Complex.normSq (y i) := by
    rw [Finset.mul_sum]
    refine Finset.sum_le_sum fun i _ => ?_
    by_cases hi : i.val < b
    · rw [hy i hi]; simp
    · exact mul_le_mul_of_nonneg_right (hl (by rw [Fin.le_def]; simpa using hi)) (Complex.normSq_nonneg _)
  have g2 : ∑ j, mu j * Complex.normSq (x j) ≤ mu ⟨b, hb⟩ * ∑ j, Complex.normSq (x j) := by
    rw [Finset.mul_sum]
    refine Finset.sum_le_sum fun j _ => ?_
    by_cases hj : j.val < b + 1
    · exact mul_le_mul_of_nonneg_right (hm (by rw [Fin.le_def]; simpa using Nat.lt_succ_iff.1 hj)) (Complex.normSq_nonneg _)
    · rw [hxn j hj]; simp
  rw [e1, e2] at g1
  exact le_of_mul_le_mul_right (g1.trans g2) hpos

theorem within_frame {S : Sys B P} {Q : Matrix B (Fin n) ℂ} {lam : Fin n → ℝ} (hQ : Ritz S Q lam) {C : Matrix B (Fin k) ℂ} {Y : Matrix (Fin n) (Fin k) ℂ} (h : C = Q * Y) :
    Cᴴ * (S.O * C) = Yᴴ * Y ∧ Cᴴ * (S.H * C) = Yᴴ * (diagonal (fun b => (lam b : ℂ)) * Y) := by
  subst h
  constructor
  · rw [conjTranspose_mul, Matrix.mul_assoc, ← Matrix.mul_assoc S.O, ← Matrix.mul_assoc Qᴴ, hQ.ortho, Matrix.one_mul]
  · rw [conjTranspose_mul, Matrix.mul_assoc, ← Matrix.mul_assoc S.H, ← Matrix.mul_assoc Qᴴ, hQ.diag]

/-- Energies in a subspace lie above those in a larger one. -/
theorem interlace {S : Sys B P} {Q : Matrix B (Fin n) ℂ} {lam : Fin n → ℝ} (hQ : Ritz S Q lam) {C : Matrix B (Fin k) ℂ} {mu : Fin k → ℝ} (hC : Ritz S C mu) (hw : Within C Q)
    (b : ℕ) (hb : b < k) (hn : b < n) : lam ⟨b, hn⟩ ≤ mu ⟨b, hb⟩ := by
  obtain ⟨Y, hY⟩ := hw
  obtain ⟨h1, h2⟩ := within_frame hQ hY
  exact interlace_diag hQ.sorted hC.sorted (h1.symm.trans hC.ortho) (h2.symm.trans hC.diag) b hb hn

/-- A subspace is not larger than a space that contains it. -/
theorem within_card {Y : Matrix (Fin n) (Fin k) ℂ} (h : Yᴴ * Y = 1) : k ≤ n := by
  by_contra hlt
  have hker : LinearMap.ker Y.mulVecLin ≠ ⊥ := LinearMap.ker_ne_bot_of_finrank_lt (by simpa using hlt)
  obtain ⟨a, ha, ha0⟩ := Submodule.exists_mem_ne_zero_of_ne_bot hker
  have hYa : Y *ᵥ a = 0 := ha
  apply ha0
  rw [← one_mulVec a, ← h, ← mulVec_mulVec, hYa, mulVec_zero]

theorem sorted_eig_exists {A : ElecMin.Mat n} (hA : A.IsHermitian) : ∃ e : ElecMin.Mat n × (Fin n → ℝ), Eig A e.1 e.2 ∧ Monotone e.2 := by
  obtain ⟨⟨V, e⟩, h⟩ := eig_exists hA
  refine ⟨(V.submatrix id (Tuple.sort e), e ∘ Tuple.sort e), ⟨?_, ?_, ?_⟩, Tuple.monotone_sort e⟩
  · show (V.submatrix id (Tuple.sort e))ᴴ * V.submatrix id (Tuple.sort e) = 1
    rw [conjTranspose_submatrix, Matrix.submatrix_mul _ _ _ id _ Function.bijective_id |>.symm, h.left]
    exact Matrix.submatrix_one_equiv _
  · show V.submatrix id (Tuple.sort e) * (V.submatrix id (Tuple.sort e))ᴴ = 1
    rw [conjTranspose_submatrix, Matrix.submatrix_mul_equiv, h.right, Matrix.submatrix_id_id]
  · show A * V.submatrix id (Tuple.sort e) = V.submatrix id (Tuple.sort e) * diagonal fun j => ((e (Tuple.sort e j) : ℝ) : ℂ)
    have h3 := congrArg (fun M => Matrix.submatrix M id (Tuple.sort e)) h.eq
    ext i j
    have := congrFun (congrFun h3 i) j
    simp only [submatrix_apply, id, mul_diagonal] at this ⊢
    rw [← this]
    rfl

/-- Sum of the lowest energies: below that of every orthonormal set. -/
theorem kyFan {S : Sys B P} (hH : S.H.IsHermitian) {Q : Matrix B (Fin n) ℂ} {lam : Fin n → ℝ} (hQ : Ritz S Q lam) {C : Matrix B (Fin k) ℂ} (hC : Cᴴ * (S.O * C) = 1) (hw : Within C Q) (hk : k ≤ n) :
    ∑ b : Fin k, lam (Fin.castLE hk b) ≤ ∑ b, ((Cᴴ * (S.H * C)) b b).re := by
  have hA : (Cᴴ * (S.H * C)).IsHermitian := by
    unfold Matrix.IsHermitian
    rw [conjTranspose_mul, conjTranspose_mul, conjTranspose_conjTranspose, hH.eq, Matrix.mul_assoc]
  obtain ⟨⟨V, mu⟩, he, hs⟩ := sorted_eig_exists hA
  have hR : Ritz S (C * V) mu := by
    refine ⟨?_, ?_, hs⟩
    · rw [conjTranspose_mul, Matrix.mul_assoc, ← Matrix.mul_assoc S.O, ← Matrix.mul_assoc Cᴴ, hC, Matrix.one_mul, he.left]
    · rw [conjTranspose_mul, Matrix.mul_assoc, ← Matrix.mul_assoc S.H, ← Matrix.mul_assoc Cᴴ, he.eq, ← Matrix.mul_assoc, he.left, Matrix.one_mul]
  obtain ⟨Y, rfl⟩ := hw
  have h1 : ∀ b : Fin k, lam (Fin.castLE hk b) ≤ mu b := fun b => interlace hQ hR ⟨Y * V, Matrix.mul_assoc _ _ _⟩ b b.2 (b.2.trans_le hk)
  refine (Finset.sum_le_sum fun b _ => h1 b).trans (le_of_eq ?_)
  have ht : (((Q * Y)ᴴ * (S.H * (Q * Y)))).trace = ∑ b, (mu b : ℂ) := by
    rw [← trace_diagonal]
    have : (Q * Y)ᴴ * (S.H * (Q * Y)) = V * diagonal (fun b => (mu b : ℂ)) * Vᴴ := by
      rw [← he.eq, Matrix.mul_assoc, he.right, Matrix.mul_one]
    rw [this, Matrix.trace_mul_comm, ← Matrix.mul_assoc, he.left, Matrix.one_mul]
  have := congrArg Complex.re ht
  rw [Matrix.trace] at this
  simp only [Complex.re_sum, Complex.ofReal_re, diag_apply] at this
  exact this.symm

end
end Jdftx.Davidson
