import Verif.Model.Mat3
import Mathlib.LinearAlgebra.Matrix.Determinant.Basic
import Mathlib.LinearAlgebra.Matrix.Adjugate
import Mathlib.Tactic.Ring
import Mathlib.Tactic.FinCases

/-! # The modelled 3x3 operations are the standard ones of Mathlib -/
namespace Jdftx.M3

variable {K : Type} [CommRing K]

omit [CommRing K] in
theorem vec_eta (v : V3 K) : vec (v 0) (v 1) (v 2) = v := by
  funext i; fin_cases i <;> rfl

theorem mulMV_eq (m : Mat K) (v : V3 K) : mulMV m v = Matrix.mulVec (Matrix.of m) v := by
  funext i
  simp [mulMV, Matrix.mulVec, dotProduct, Fin.sum_univ_three]

theorem mulVM_eq (m : Mat K) (v : V3 K) : mulVM v m = Matrix.vecMul v (Matrix.of m) := by
  funext i
  simp [mulVM, Matrix.vecMul, dotProduct, Fin.sum_univ_three]

theorem mulMM_eq (m n : Mat K) : Matrix.of (mulMM m n) = Matrix.of m * Matrix.of n := by
  ext i j
  simp [mulMM, Matrix.mul_apply, Fin.sum_univ_three]

theorem diag_one : Matrix.of (diag (1 : K) 1 1) = 1 := by
  ext i j; fin_cases i <;> fin_cases j <;> simp [diag, vec]

theorem det_eq (m : Mat K) : det m = (Matrix.of m).det := by
  rw [Matrix.det_fin_three]
  simp [det, box, dot, cross, row, vec]; ring

theorem adjugate_eq (m : Mat K) : Matrix.of (adjugate m) = (Matrix.of m).adjugate := by
  rw [Matrix.adjugate_fin_three]
  ext i j; fin_cases i <;> fin_cases j <;> simp [adjugate, ofCols, cross, row, vec] <;> ring

omit [CommRing K] in
theorem transpose_eq (m : Mat K) : Matrix.of (transpose m) = (Matrix.of m).transpose := rfl

theorem smul_eq (s : K) (m : Mat K) : Matrix.of (smul s m) = s • Matrix.of m := by
  ext i j; simp [smul, mul_comm]

/-- The product with the scaled adjugate is the identity for determinant ±1. -/
theorem mulMM_inv (m : Mat Int) (h : det m = 1 ∨ det m = -1) :
    Matrix.of m * Matrix.of (smul (det m) (adjugate m)) = 1 ∧
    Matrix.of (smul (det m) (adjugate m)) * Matrix.of m = 1 := by
  rw [smul_eq, adjugate_eq, det_eq] at *
  have hd : (Matrix.of m).det * (Matrix.of m).det = 1 := by rcases h with h | h <;> rw [h] <;> norm_num
  constructor
  · rw [Matrix.mul_smul, Matrix.mul_adjugate, smul_smul, hd, one_smul]
  · rw [Matrix.smul_mul, Matrix.adjugate_mul, smul_smul, hd, one_smul]

theorem castMat_eq (m : Mat Int) : Matrix.of (castMat m : Mat K) = (Matrix.of m).map (Int.castRingHom K) := rfl

theorem mulMV_castMM (m n : Mat Int) (v : V3 K) :
    mulMV (castMat (mulMM m n)) v = mulMV (castMat m) (mulMV (castMat n) v) := by
  rw [mulMV_eq, mulMV_eq, mulMV_eq, castMat_eq, castMat_eq, castMat_eq, mulMM_eq, Matrix.map_mul, Matrix.mulVec_mulVec]

theorem mulMV_add (m : Mat K) (v w : V3 K) : mulMV m (fun i => v i + w i) = fun i => mulMV m v i + mulMV m w i := by
  funext i; simp [mulMV]; ring

theorem mulMV_neg (m : Mat K) (v : V3 K) : mulMV m (fun i => - v i) = fun i => - mulMV m v i := by
  funext i; simp [mulMV]; ring

theorem mulMV_one (v : V3 K) : mulMV (castMat (diag 1 1 1)) v = v := by
  rw [mulMV_eq, castMat_eq, diag_one]; simp

end Jdftx.M3
