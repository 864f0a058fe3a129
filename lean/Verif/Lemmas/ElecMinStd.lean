import Verif.Lemmas.ElecMin
import Mathlib.Analysis.Matrix.LDL
import Mathlib.Analysis.Matrix.Spectrum

/-! # Linear algebra as LAPACK promises it exists for every number of bands -/
namespace Jdftx.ElecMin
open Matrix Jdftx.MatFn ComplexConjugate
open scoped ComplexOrder
noncomputable section

variable {n : ℕ}

/-- Every lower triangular invertible factor can be given a positive diagonal. -/
theorem lower_phase {L A : Mat n} (ht : ∀ i j, i < j → L i j = 0) (hd : ∀ j, L j j ≠ 0) (hA : L * Lᴴ = A) : ∃ L' : Mat n, Lower L' ∧ L' * L'ᴴ = A := by
  have hn : ∀ j, ((‖L j j‖ : ℝ) : ℂ) ≠ 0 := fun j => by
    rw [Ne, Complex.ofReal_eq_zero, norm_eq_zero]; exact hd j
  let P : Mat n := diagonal (fun j => conj (L j j) / (‖L j j‖ : ℂ))
  have hPP : P * Pᴴ = 1 := by
    simp only [P]
    rw [diagonal_conjTranspose, diagonal_mul_diagonal, ← diagonal_one]
    congr 1
    funext j
    simp only [Pi.star_apply, Complex.star_def, map_div₀, Complex.conj_conj, Complex.conj_ofReal]
    have h := hn j
    field_simp
    have := Complex.mul_conj (L j j)
    rw [mul_comm, this, Complex.normSq_eq_norm_sq]
    push_cast; ring
  have hdiag : ∀ j, (L * P) j j = ((‖L j j‖ : ℝ) : ℂ) := by
    intro j
    simp only [P, Matrix.mul_diagonal]
    have h := hn j
    field_simp
    rw [Complex.mul_conj, Complex.normSq_eq_norm_sq]
    push_cast; ring
  refine ⟨L * P, ⟨?_, ?_, ?_⟩, ?_⟩
  · intro i j hij
    simp only [P, Matrix.mul_diagonal, ht i j hij, zero_mul]
  · intro j; rw [hdiag, Complex.ofReal_re]; exact norm_pos_iff.2 (hd j)
  · intro j; rw [hdiag, Complex.ofReal_im]
  · rw [conjTranspose_mul, Matrix.mul_assoc, ← Matrix.mul_assoc P, hPP, Matrix.one_mul, hA]

/-- Cholesky factors of positive definite matrices exist. -/
theorem chol_exists {A : Mat n} (hA : A.PosDef) : ∃ L : Mat n, Lower L ∧ L * Lᴴ = A := by
  have htri : BlockTriangular (LDL.lowerInv hA) OrderDual.toDual := fun i j hij => LDL.lowerInv_triangular hA (by simpa using hij)
  have htri' : BlockTriangular (LDL.lower hA) OrderDual.toDual := by
    unfold LDL.lower
    exact blockTriangular_inv_of_blockTriangular htri
  have hD : (LDL.diag hA).PosSemidef := by
    rw [LDL.diag_eq_lowerInv_conj]
    exact hA.posSemidef.mul_mul_conjTranspose_same _
  have hDi : ∀ j, 0 ≤ (LDL.diag hA) j j := fun j => hD.diag_nonneg
  set d : Fin n → ℝ := fun j => ((LDL.diag hA) j j).re with hd
  have hd0 : ∀ j, 0 ≤ d j := fun j => (Complex.nonneg_iff.1 (hDi j)).1
  have hdd : LDL.diag hA = diagonal (fun j => (d j : ℂ)) := by
    have : ∀ j, (LDL.diag hA) j j = (d j : ℂ) := fun j => by
      apply Complex.ext
      · simp [hd]
      · simpa using (Complex.nonneg_iff.1 (hDi j)).2.symm
    ext a b
    by_cases h : a = b
    · subst h; rw [this a, diagonal_apply_eq]
    · rw [diagonal_apply_ne _ h]; unfold LDL.diag; rw [diagonal_apply_ne _ h]
  let R : Mat n := diagonal (fun j => (Real.sqrt (d j) : ℂ))
  have hRR : R * Rᴴ = LDL.diag hA := by
    rw [hdd]
    simp only [R]
    rw [diagonal_conjTranspose, diagonal_mul_diagonal]
    congr 1
    funext j
    simp only [Pi.star_apply, Complex.star_def, Complex.conj_ofReal]
    rw [← Complex.ofReal_mul, Real.mul_self_sqrt (hd0 j)]
  have hLL : (LDL.lower hA * R) * (LDL.lower hA * R)ᴴ = A := by
    rw [conjTranspose_mul, Matrix.mul_assoc, ← Matrix.mul_assoc R, hRR, ← Matrix.mul_assoc]
    exact LDL.lower_conj_diag hA
  have hz : ∀ i j, i < j → (LDL.lower hA * R) i j = 0 := by
    intro i j hij
    simp only [R, Matrix.mul_diagonal]
    rw [htri' (by simpa using hij), zero_mul]
  refine lower_phase hz ?_ hLL
  have hdet : (LDL.lower hA * R).det ≠ 0 := by
    intro h0
    have h1 := hA.det_pos
    rw [← hLL, det_mul, h0, zero_mul] at h1
    exact lt_irrefl _ h1
  have ht : BlockTriangular (LDL.lower hA * R) OrderDual.toDual := fun i j hij => hz i j (by simpa using hij)
  rw [Matrix.det_of_isLowerTriangular _ ht, Finset.prod_ne_zero_iff] at hdet
  exact fun j => hdet j (Finset.mem_univ j)

theorem eig_exists {A : Mat n} (hA : A.IsHermitian) : ∃ e : Mat n × (Fin n → ℝ), Eig A e.1 e.2 := by
  refine ⟨(hA.eigenvectorUnitary, hA.eigenvalues), ⟨?_, ?_, ?_⟩⟩
  · exact Unitary.coe_star_mul_self _
  · exact Unitary.coe_mul_star_self _
  · have h := hA.spectral_theorem
    have h2 : A * (hA.eigenvectorUnitary : Mat n) = (hA.eigenvectorUnitary : Mat n) * diagonal (RCLike.ofReal ∘ hA.eigenvalues) := by
      refine (congrArg (· * (hA.eigenvectorUnitary : Mat n)) h).trans ?_
      rw [Unitary.conjStarAlgAut_apply, Matrix.mul_assoc, Unitary.coe_star_mul_self, Matrix.mul_one]
    exact h2

/-- Linear algebra meeting the promises. -/
def std (n : ℕ) : Lapack n where
  eig A := open Classical in if h : A.IsHermitian then (eig_exists h).choose else (1, 0)
  chol A := open Classical in if h : A.PosDef then some (chol_exists h).choose else none

theorem std_OK : (std n).OK where
  eig A h := by
    unfold std
    simp only [h, dif_pos]
    exact (eig_exists h).choose_spec
  chol A L h := by
    unfold std at h
    simp only at h
    split at h
    · rename_i hA
      obtain rfl := Option.some.inj h
      exact (chol_exists hA).choose_spec
    · simp at h
  posDef A h := by
    unfold std
    simp [h]

end
end Jdftx.ElecMin
