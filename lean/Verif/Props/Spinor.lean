import Verif.Props.Euler
import Mathlib.LinearAlgebra.Matrix.ConjTranspose

/-!
# Spinor rotations (C66)
-/
noncomputable section
namespace Jdftx.Euler
open M3
open scoped Matrix

theorem half_angle (t : ℝ) : Real.cos t = Real.cos (0.5 * t) ^ 2 - Real.sin (0.5 * t) ^ 2 ∧ Real.sin t = 2 * Real.sin (0.5 * t) * Real.cos (0.5 * t) := by
  have h : t = 2 * (0.5 * t) := by ring
  constructor
  · conv_lhs => rw [h]
    rw [Real.cos_two_mul']
  · conv_lhs => rw [h]
    rw [Real.sin_two_mul]

/-- Rotation of spinors about the third axis. -/
def spinZ (t : ℝ) : M2 := !![cis (0.5 * t), 0; 0, star (cis (0.5 * t))]
/-- Rotation of spinors about the second axis. -/
def spinY (t : ℝ) : M2 := !![((cis (0.5 * t)).re : ℂ), ((cis (0.5 * t)).im : ℂ); -((cis (0.5 * t)).im : ℂ), ((cis (0.5 * t)).re : ℂ)]

theorem spinZ_pauli (t : ℝ) (v : V3 ℝ) : spinZ t * pauli v * (spinZ t)ᴴ = pauli (mulMV (rotation t 2) v) := by
  obtain ⟨hc, hs⟩ := half_angle t
  have h1 := Real.sin_sq_add_cos_sq (0.5 * t)
  simp only [spinZ, pauli, cis, rotation, hc, hs]
  generalize Real.cos (0.5 * t) = c at *
  generalize Real.sin (0.5 * t) = s at *
  ext i j
  fin_cases i <;> fin_cases j <;> apply Complex.ext <;>
    simp [mulMV, vec, Matrix.mul_apply, Fin.sum_univ_two] <;>
    (try simp only [pow_two, Complex.mul_re, Complex.mul_im, Complex.ofReal_re, Complex.ofReal_im]) <;>
    first
    | ring1
    | linear_combination (v 2) * h1
    | linear_combination (-(v 2)) * h1

theorem spinY_pauli (t : ℝ) (v : V3 ℝ) : spinY t * pauli v * (spinY t)ᴴ = pauli (mulMV (rotation t 1) v) := by
  obtain ⟨hc, hs⟩ := half_angle t
  have h1 := Real.sin_sq_add_cos_sq (0.5 * t)
  simp only [spinY, pauli, cis, rotation, hc, hs]
  generalize Real.cos (0.5 * t) = c at *
  generalize Real.sin (0.5 * t) = s at *
  ext i j
  fin_cases i <;> fin_cases j <;> apply Complex.ext <;>
    simp [mulMV, vec, Matrix.mul_apply, Fin.sum_univ_two] <;>
    (try simp only [pow_two, Complex.mul_re, Complex.mul_im, Complex.ofReal_re, Complex.ofReal_im]) <;>
    first
    | ring1
    | linear_combination (v 1) * h1
    | linear_combination (-(v 1)) * h1

theorem spinZ_unitary (t : ℝ) : spinZ t * (spinZ t)ᴴ = 1 ∧ (spinZ t).det = 1 := by
  have h1 := Real.sin_sq_add_cos_sq (0.5 * t)
  simp only [spinZ, cis]
  generalize Real.cos (0.5 * t) = c at *
  generalize Real.sin (0.5 * t) = s at *
  constructor
  · ext i j
    fin_cases i <;> fin_cases j <;> apply Complex.ext <;>
      simp [Matrix.mul_apply, Fin.sum_univ_two] <;> first | ring1 | linear_combination h1
  · rw [Matrix.det_fin_two]
    apply Complex.ext <;> simp <;> first | ring1 | linear_combination h1

theorem spinY_unitary (t : ℝ) : spinY t * (spinY t)ᴴ = 1 ∧ (spinY t).det = 1 := by
  have h1 := Real.sin_sq_add_cos_sq (0.5 * t)
  simp only [spinY, cis]
  generalize Real.cos (0.5 * t) = c at *
  generalize Real.sin (0.5 * t) = s at *
  constructor
  · ext i j
    fin_cases i <;> fin_cases j <;> apply Complex.ext <;>
      simp [Matrix.mul_apply, Fin.sum_univ_two] <;> first | ring1 | linear_combination h1
  · rw [Matrix.det_fin_two]
    apply Complex.ext <;> simp; first | ring1 | linear_combination h1

theorem spinorFromEuler_eq (e : V3 ℝ) : spinorFromEuler e = spinZ (e 0) * spinY (e 1) * spinZ (e 2) := rfl

theorem spinorFromEuler_unitary (e : V3 ℝ) : spinorFromEuler e * (spinorFromEuler e)ᴴ = 1 ∧ (spinorFromEuler e)ᴴ * spinorFromEuler e = 1 ∧ (spinorFromEuler e).det = 1 := by
  have h : spinorFromEuler e * (spinorFromEuler e)ᴴ = 1 := by
    rw [spinorFromEuler_eq, Matrix.conjTranspose_mul, Matrix.conjTranspose_mul]
    calc spinZ (e 0) * spinY (e 1) * spinZ (e 2) * ((spinZ (e 2))ᴴ * ((spinY (e 1))ᴴ * (spinZ (e 0))ᴴ))
        = spinZ (e 0) * (spinY (e 1) * (spinZ (e 2) * (spinZ (e 2))ᴴ) * (spinY (e 1))ᴴ) * (spinZ (e 0))ᴴ := by simp only [mul_assoc]
      _ = 1 := by rw [(spinZ_unitary _).1, mul_one, (spinY_unitary _).1, mul_one, (spinZ_unitary _).1]
  refine ⟨h, mul_eq_one_comm.1 h, ?_⟩
  rw [spinorFromEuler_eq, Matrix.det_mul, Matrix.det_mul, (spinZ_unitary _).2, (spinY_unitary _).2, (spinZ_unitary _).2]
  norm_num

/-- The spinor rotation of three angles turns the spin operators by the rotation matrix of the same angles. -/
theorem spinorFromEuler_pauli (e : V3 ℝ) (v : V3 ℝ) :
    spinorFromEuler e * pauli v * (spinorFromEuler e)ᴴ = pauli (mulMV (matrixFromEuler e) v) := by
  rw [spinorFromEuler_eq, Matrix.conjTranspose_mul, Matrix.conjTranspose_mul]
  calc spinZ (e 0) * spinY (e 1) * spinZ (e 2) * pauli v * ((spinZ (e 2))ᴴ * ((spinY (e 1))ᴴ * (spinZ (e 0))ᴴ))
      = spinZ (e 0) * (spinY (e 1) * (spinZ (e 2) * pauli v * (spinZ (e 2))ᴴ) * (spinY (e 1))ᴴ) * (spinZ (e 0))ᴴ := by simp only [mul_assoc]
    _ = pauli (mulMV (matrixFromEuler e) v) := by
      rw [spinZ_pauli, spinY_pauli, spinZ_pauli]
      congr 1
      unfold matrixFromEuler
      rw [mulMV_eq, mulMV_eq, mulMV_eq, mulMV_eq, mulMM_eq, mulMM_eq, Matrix.mulVec_mulVec, Matrix.mulVec_mulVec, mul_assoc]

/-- Improper rotations: times the determinant they are proper. -/
theorem proper (m : Mat ℝ) (h : Orthogonal m) : Rotation (smul (1 / det m) m) ∧ det m * det m = 1 := by
  have hd : det m * det m = 1 := by
    have := congrArg Matrix.det (orthogonal_mul m h).1
    rwa [Matrix.det_mul, Matrix.det_transpose, Matrix.det_one, ← det_eq] at this
  have hne : det m ≠ 0 := fun h0 => by rw [h0] at hd; norm_num at hd
  have hinv : 1 / det m * (1 / det m) = 1 := by field_simp; rw [sq, hd]
  refine ⟨⟨fun i j => ?_, ?_⟩, hd⟩
  · rw [← h i j]
    simp only [smul, dot]
    generalize 1 / det m = d at *
    linear_combination (m i 0 * m j 0 + m i 1 * m j 1 + m i 2 * m j 2) * hinv
  · rw [smul_eq, Matrix.det_smul, ← det_eq]
    simp only [Fintype.card_fin]
    field_simp
    rw [sq, hd]

/-- The spinor rotation of an orthogonal matrix (with or without inversion) is unitary with determinant 1, and turns the spin operators by that
matrix, inversion left out; exactly, unless the matrix is within the code's tolerance of keeping or reversing the polar axis without doing so exactly. -/
theorem C66_spinor (m : Mat ℝ) (h : Orthogonal m) :
    getSpinorRotation m * (getSpinorRotation m)ᴴ = 1 ∧ (getSpinorRotation m)ᴴ * getSpinorRotation m = 1 ∧ (getSpinorRotation m).det = 1 ∧
    (|m 2 2| ≤ 1 - 1e-7 ∨ |m 2 2| = 1 →
      ∀ v, getSpinorRotation m * pauli v * (getSpinorRotation m)ᴴ = pauli fun i => (Matrix.of m).det * mulMV m v i) := by
  obtain ⟨h1, h2, h3⟩ := spinorFromEuler_unitary (eulerFromMatrix (smul (1 / det m) m))
  refine ⟨h1, h2, h3, fun hc v => ?_⟩
  obtain ⟨hp, hd⟩ := proper m h
  have hone : |det m| = 1 := by
    have := abs_mul_abs_self (det m)
    rw [hd] at this
    nlinarith [abs_nonneg (det m)]
  have hc' : |smul (1 / det m) m 2 2| = |m 2 2| := by
    simp only [smul]
    rw [abs_mul, abs_div, hone, abs_one, div_one, mul_one]
  rw [← hc'] at hc
  unfold getSpinorRotation
  rw [spinorFromEuler_pauli, (C56_euler _ hp).1 hc, ← det_eq]
  congr 1
  funext i
  have hne : det m ≠ 0 := fun h0 => by rw [h0] at hd; norm_num at hd
  have hdi : 1 / det m = det m := by field_simp; rw [sq, hd]
  rw [hdi]
  simp only [mulMV, smul]
  ring

/-- Spin of a wavefunction transformed by the spinor matrix of a symmetry operation: the spin along a direction is that of the original
along the rotated direction, without the inversion (spin is an axial vector), and with opposite sign when the transform includes time reversal. -/
theorem C66_spin (m : Mat ℝ) (h : Orthogonal m) (hc : |m 2 2| ≤ 1 - 1e-7 ∨ |m 2 2| = 1) (psi : Fin 2 → ℂ) (v : V3 ℝ) :
    spin (Matrix.mulVec (spinorRot m 1) psi) v = spin psi (fun i => (Matrix.of m).det * mulMV m v i) ∧
    spin (Matrix.mulVec (spinorRot m (-1)) (star psi)) v = -spin psi (fun i => (Matrix.of m).det * mulMV m v i) := by
  have ht : Orthogonal (transpose m) := by
    intro i j
    have := congrFun (congrFun (orthogonal_mul m h).2 i) j
    rw [Matrix.mul_apply, Fin.sum_univ_three, Matrix.one_apply] at this
    exact this
  obtain ⟨u1, u2, _, hp⟩ := C66_spinor (transpose m) ht
  have hp := hp hc
  set U := getSpinorRotation (transpose m) with hU
  -- the inverse relation
  have hdet : (Matrix.of (transpose m)).det = (Matrix.of m).det := by rw [transpose_eq, Matrix.det_transpose]
  have hdd : (Matrix.of m).det * (Matrix.of m).det = 1 := by rw [← det_eq]; exact (proper m h).2
  have hpin : ∀ w, Uᴴ * pauli w * U = pauli fun i => (Matrix.of m).det * mulMV m w i := by
    intro w
    have := hp fun i => (Matrix.of m).det * mulMV m w i
    have hv : (fun i => (Matrix.of (transpose m)).det * mulMV (transpose m) (fun i => (Matrix.of m).det * mulMV m w i) i) = w := by
      have e1 : mulMV (transpose m) (mulMV m w) = w := by
        rw [mulMV_eq, mulMV_eq, transpose_eq, Matrix.mulVec_mulVec, (orthogonal_mul m h).2, Matrix.one_mulVec]
      rw [hdet]
      funext i
      rw [← congrFun e1 i]
      simp only [mulMV]
      linear_combination (0 + transpose m i 0 * (0 + m 0 0 * w 0 + m 0 1 * w 1 + m 0 2 * w 2) + transpose m i 1 * (0 + m 1 0 * w 0 + m 1 1 * w 1 + m 1 2 * w 2) + transpose m i 2 * (0 + m 2 0 * w 0 + m 2 1 * w 1 + m 2 2 * w 2)) * hdd
    rw [hv] at this
    rw [← this]
    generalize pauli (fun i => (Matrix.of m).det * mulMV m w i) = P
    calc Uᴴ * (U * P * Uᴴ) * U = (Uᴴ * U) * P * (Uᴴ * U) := by simp only [mul_assoc]
      _ = _ := by rw [u2, one_mul, mul_one]
  have hspin : ∀ (W : M2) (x : Fin 2 → ℂ), spin (Matrix.mulVec W x) v = dotProduct (star x) (Matrix.mulVec (Wᴴ * pauli v * W) x) := by
    intro W x
    unfold spin
    rw [Matrix.star_mulVec, ← Matrix.dotProduct_mulVec, Matrix.mulVec_mulVec, Matrix.mulVec_mulVec, mul_assoc]
  have e1 : spinorRot m 1 = U := by unfold spinorRot; rw [if_neg (by norm_num)]
  have e2 : spinorRot m (-1) = ((!![0, 1; -1, 0] : M2) * U).map star := by unfold spinorRot; rw [if_pos (by norm_num)]
  have spin1 : spin (Matrix.mulVec U psi) v = spin psi (fun i => (Matrix.of m).det * mulMV m v i) := by
    rw [hspin, hpin]; rfl
  constructor
  · rw [e1]; exact spin1
  · rw [e2, ← spin1]
    have hstar : Matrix.mulVec (((!![0, 1; -1, 0] : M2) * U).map star) (star psi) = star (Matrix.mulVec (!![0, 1; -1, 0] : M2) (Matrix.mulVec U psi)) := by
      rw [Matrix.mulVec_mulVec]
      generalize (!![0, 1; -1, 0] : M2) * U = W
      funext i
      simp [Matrix.mulVec, dotProduct, Fin.sum_univ_two]
    rw [hstar]
    generalize Matrix.mulVec U psi = phi
    apply Complex.ext <;>
      simp [spin, pauli, Matrix.mulVec, dotProduct, Fin.sum_univ_two] <;> ring

/-- The rotation by 180 degrees about the third axis reverses the spin along the first. -/
example (psi : Fin 2 → ℂ) : spin (Matrix.mulVec (spinorRot (diag (-1) (-1) 1) 1) psi) (vec 1 0 0) = -spin psi (vec 1 0 0) := by
  have h : Orthogonal (diag (-1) (-1) 1 : Mat ℝ) := by
    intro i j
    match i, j with
    | 0, 0 | 0, 1 | 0, 2 | 1, 0 | 1, 1 | 1, 2 | 2, 0 | 2, 1 | 2, 2 => simp [dot, diag, vec]
  rw [(C66_spin _ h (Or.inr (by simp [diag, vec])) psi _).1, ← det_eq]
  simp [spin, pauli, mulMV, det, box, dot, cross, row, diag, vec, Matrix.mulVec, dotProduct, Fin.sum_univ_two]
  ring

end Jdftx.Euler
