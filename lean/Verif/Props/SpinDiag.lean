import Verif.Spec.SpinDiag
import Mathlib.Analysis.Calculus.Deriv.Mul
import Mathlib.Analysis.Calculus.Deriv.Inv
import Mathlib.Analysis.SpecialFunctions.Sqrt

/-!
# C73: noncollinear magnetism is reduced to spin-diagonal densities, independently of the spin axes
-/
namespace Jdftx.SpinDiag
noncomputable section
open scoped Matrix

theorem reg_pos (n : Spin4) : 0 < dot (vectorPart n) (vectorPart n) + LDA.nCutoff := by
  have : 0 ≤ dot (vectorPart n) (vectorPart n) := by
    simp only [dot]; nlinarith [mul_self_nonneg (vectorPart n 0), mul_self_nonneg (vectorPart n 1), mul_self_nonneg (vectorPart n 2)]
  have h : (0 : ℝ) < LDA.nCutoff := by norm_num [LDA.nCutoff]
  linarith

theorem trace_eq (x : Spin4) : ((scalarPart x : ℝ) : ℂ) = (spinMatrix x).trace := by
  simp [scalarPart, spinMatrix, Matrix.trace, Fin.sum_univ_two]

theorem dot_eq (x y : Spin4) : ((dot (vectorPart x) (vectorPart y) : ℝ) : ℂ)
    = 2 * (spinMatrix x * spinMatrix y).trace - (spinMatrix x).trace * (spinMatrix y).trace := by
  simp only [dot, vectorPart, spinMatrix, Matrix.trace, Fin.sum_univ_two, Matrix.mul_apply, Matrix.diag_apply,
    Matrix.cons_val_zero, Matrix.cons_val_one, Matrix.cons_val, Matrix.of_apply, Matrix.cons_val']
  push_cast
  linear_combination (4 * (x 3 : ℂ) * y 3) * Complex.I_sq

theorem rotated_trace {U : Matrix (Fin 2) (Fin 2) ℂ} (hU : Uᴴ * U = 1) {x y : Spin4} (h : Rotated U x y) :
    (spinMatrix y).trace = (spinMatrix x).trace := by
  rw [h, Matrix.trace_mul_comm, ← Matrix.mul_assoc, hU, Matrix.one_mul]

theorem rotated_dot {U : Matrix (Fin 2) (Fin 2) ℂ} (hU : Uᴴ * U = 1) {x y x' y' : Spin4} (h : Rotated U x x')
    (h' : Rotated U y y') : dot (vectorPart x') (vectorPart y') = dot (vectorPart x) (vectorPart y) := by
  have e : ((dot (vectorPart x') (vectorPart y') : ℝ) : ℂ) = dot (vectorPart x) (vectorPart y) := by
    rw [dot_eq, dot_eq, rotated_trace hU h, rotated_trace hU h', h, h']
    congr 2
    have : U * spinMatrix x * Uᴴ * (U * spinMatrix y * Uᴴ) = U * (spinMatrix x * spinMatrix y) * Uᴴ := by
      calc _ = U * spinMatrix x * (Uᴴ * U) * spinMatrix y * Uᴴ := by simp only [Matrix.mul_assoc]
        _ = _ := by rw [hU, Matrix.mul_one]; simp only [Matrix.mul_assoc]
    rw [this, Matrix.trace_mul_comm, ← Matrix.mul_assoc, hU, Matrix.one_mul]
  exact_mod_cast e

theorem dot_mHat (n x : Spin4) : dot (vectorPart x) (mHat n) = dot (vectorPart x) (vectorPart n) * normFac n := by
  simp only [dot, mHat]; ring

/-- Rotating the spin axes, of the density and of what is transformed, changes nothing. -/
theorem C73_rotation (U : Matrix (Fin 2) (Fin 2) ℂ) (hU : U ∈ Matrix.unitaryGroup (Fin 2) ℂ) (n x n' x' : Spin4)
    (hn : Rotated U n n') (hx : Rotated U x x') : diagonalize n' x' = diagonalize n x := by
  have hU' : Uᴴ * U = 1 := Matrix.mem_unitaryGroup_iff'.1 hU
  have e0 : scalarPart x' = scalarPart x := by
    have := rotated_trace hU' hx
    rw [← trace_eq, ← trace_eq] at this
    exact_mod_cast this
  simp only [diagonalize, dot_mHat, normFac, e0, rotated_dot hU' hx hn, rotated_dot hU' hn hn]

/-- The two results add up to the trace, whatever the axes. -/
theorem C73_trace (n x : Spin4) : ((diagonalize n x 0 + diagonalize n x 1 : ℝ) : ℂ) = (spinMatrix x).trace := by
  rw [← trace_eq]
  simp only [diagonalize, Matrix.cons_val_zero, Matrix.cons_val_one]
  push_cast
  norm_num
  ring

/-- The densities obtained are the eigenvalues of the spin density matrix, to within 5e-9 (the regularisation that keeps the
direction defined where the magnetisation vanishes). -/
theorem C73_eigenvalues (n : Spin4) : ∃ l0 l1, Eigenvalues n l0 l1 ∧
    |diagonalize n n 0 - l0| ≤ 5e-9 ∧ |diagonalize n n 1 - l1| ≤ 5e-9 := by
  set m := dot (vectorPart n) (vectorPart n) with hm
  have hm0 : 0 ≤ m := by
    simp only [hm, dot]; nlinarith [mul_self_nonneg (vectorPart n 0), mul_self_nonneg (vectorPart n 1), mul_self_nonneg (vectorPart n 2)]
  set q := Real.sqrt m with hq
  have hq0 : 0 ≤ q := Real.sqrt_nonneg m
  have hq2 : q * q = m := Real.mul_self_sqrt hm0
  set r := Real.sqrt (m + LDA.nCutoff) with hr
  have hc : (LDA.nCutoff : ℝ) = 1e-8 * 1e-8 := by norm_num [LDA.nCutoff]
  have hr2 : r * r = m + LDA.nCutoff := Real.mul_self_sqrt (by rw [hc]; positivity)
  have hrpos : 0 < r := Real.sqrt_pos.2 (by rw [hc]; positivity)
  have hqr : q ≤ r := Real.sqrt_le_sqrt (by rw [hc]; linarith [show (0:ℝ) < 1e-8 * 1e-8 by norm_num])
  have hrq : r ≤ q + 1e-8 := by nlinarith
  have hd : dot (vectorPart n) (mHat n) = m / r := by
    rw [dot_mHat, normFac, ← hm, ← hr]; ring
  have hb : |m / r - q| ≤ 1e-8 := by
    have e : m / r - q = -(q * (r - q) / r) := by field_simp; nlinarith
    rw [e, abs_neg, abs_of_nonneg (by apply div_nonneg _ hrpos.le; exact mul_nonneg hq0 (by linarith)), div_le_iff₀ hrpos]
    nlinarith
  refine ⟨(scalarPart n + q) / 2, (scalarPart n - q) / 2, ⟨by linarith, fun z => ?_⟩, ?_, ?_⟩
  · have hmc : ((q : ℂ)) * q = (2 * n 2) * (2 * n 2) + (-2 * n 3) * (-2 * n 3) + (n 0 - n 1) * (n 0 - n 1) := by
      have : q * q = (2 * n 2) * (2 * n 2) + (-2 * n 3) * (-2 * n 3) + (n 0 - n 1) * (n 0 - n 1) := by
        rw [hq2, hm]; simp [dot, vectorPart]
      exact_mod_cast this
    rw [Matrix.det_fin_two]
    simp only [spinMatrix, Matrix.sub_apply, Matrix.smul_apply, Matrix.one_apply, Matrix.of_apply, Matrix.cons_val_zero, Matrix.cons_val_one,
      Matrix.cons_val', smul_eq_mul, scalarPart]
    push_cast
    norm_num
    linear_combination (1 / 4 : ℂ) * hmc + (n 3 : ℂ) ^ 2 * Complex.I_sq
  · simp only [diagonalize, hd, Matrix.cons_val_zero]
    rw [abs_le] at hb ⊢
    constructor <;> norm_num at hb ⊢ <;> linarith [hb.1, hb.2]
  · simp only [diagonalize, hd, Matrix.cons_val_one, Matrix.cons_val]
    rw [abs_le] at hb ⊢
    constructor <;> norm_num at hb ⊢ <;> linarith [hb.1, hb.2]

/-! ### Derivatives -/

theorem vec_deriv {n : ℝ → Spin4} {n' : Spin4} (h : ∀ s, HasDerivAt (fun t => n t s) (n' s) 0) (k : Fin 3) :
    HasDerivAt (fun t => vectorPart (n t) k) (vectorPart n' k) 0 := by
  match k with
  | 0 => exact (h 2).const_mul 2
  | 1 => exact (h 3).const_mul (-2)
  | 2 => exact (h 0).sub (h 1)

theorem normFac_deriv {n : ℝ → Spin4} {n' : Spin4} (h : ∀ s, HasDerivAt (fun t => n t s) (n' s) 0) :
    HasDerivAt (fun t => normFac (n t)) (-(normFac (n 0)) ^ 3 * dot (vectorPart (n 0)) (vectorPart n')) 0 := by
  have hv := vec_deriv h
  have hpos := reg_pos (n 0)
  have hs := ((((hv 0).mul (hv 0)).add ((hv 1).mul (hv 1))).add ((hv 2).mul (hv 2))).add_const LDA.nCutoff
  have hs' := hs.sqrt (show _ ≠ 0 from hpos.ne')
  have hr := Real.sqrt_pos.2 hpos
  have hi := hs'.inv (show _ ≠ 0 from hr.ne')
  refine HasDerivAt.congr_of_eventuallyEq (hi.congr_deriv ?_) (Filter.Eventually.of_forall fun t => ?_)
  · simp only [normFac]
    show -(_ / (2 * Real.sqrt (dot (vectorPart (n 0)) (vectorPart (n 0)) + LDA.nCutoff)))
      / (Real.sqrt (dot (vectorPart (n 0)) (vectorPart (n 0)) + LDA.nCutoff)) ^ 2 = _
    generalize Real.sqrt (dot (vectorPart (n 0)) (vectorPart (n 0)) + LDA.nCutoff) = r at hr
    have := hr.ne'
    simp only [dot]
    field_simp
    ring
  · simp only [normFac, one_div]
    rfl

theorem diag_deriv {n x : ℝ → Spin4} {n' x' : Spin4} (hn : ∀ s, HasDerivAt (fun t => n t s) (n' s) 0)
    (hx : ∀ s, HasDerivAt (fun t => x t s) (x' s) 0) (s : Fin 2) :
    HasDerivAt (fun t => diagonalize (n t) (x t) s)
      (0.5 * (scalarPart x' + (if s = 0 then 1 else -1) *
        (dot (vectorPart x') (mHat (n 0)) + (dot (vectorPart (x 0)) (vectorPart n') - dot (vectorPart (x 0)) (mHat (n 0)) * dot (mHat (n 0)) (vectorPart n')) * normFac (n 0)))) 0 := by
  have hvx := vec_deriv hx
  have hvn := vec_deriv hn
  have hf := normFac_deriv hn
  have hd : HasDerivAt (fun t => dot (vectorPart (x t)) (mHat (n t))) (dot (vectorPart x') (mHat (n 0)) +
      (dot (vectorPart (x 0)) (vectorPart n') - dot (vectorPart (x 0)) (mHat (n 0)) * dot (mHat (n 0)) (vectorPart n')) * normFac (n 0)) 0 := by
    have hk := fun k => (hvx k).mul ((hvn k).mul hf)
    refine (((hk 0).add (hk 1)).add (hk 2)).congr_deriv ?_
    simp only [dot, mHat, Pi.mul_apply]
    ring
  have hs0 : HasDerivAt (fun t => scalarPart (x t)) (scalarPart x') 0 := (hx 0).add (hx 1)
  match s with
  | 0 =>
    refine ((hs0.add hd).const_mul 0.5).congr_deriv ?_
    simp
  | 1 =>
    refine ((hs0.sub hd).const_mul 0.5).congr_deriv ?_
    rw [if_neg (show (1 : Fin 2) ≠ 0 by decide)]; ring

/-- If `E_xDiag` is the gradient of a function of the transformed values, then what is added to `E_n` and `E_x` is its
gradient with respect to the density matrix and to what is transformed. -/
theorem C73_gradient (F : (Fin 2 → ℝ) → ℝ) (n x : ℝ → Spin4) (n' x' : Spin4) (E_xDiag : Fin 2 → ℝ) (E_n E_x : Spin4)
    (hF : GradientAt F E_xDiag (diagonalize (n 0) (x 0)))
    (hn : ∀ s, HasDerivAt (fun t => n t s) (n' s) 0) (hx : ∀ s, HasDerivAt (fun t => x t s) (x' s) 0) :
    HasDerivAt (fun t => F (diagonalize (n t) (x t)))
      (∑ s, ((diagonalizeGrad (n 0) (x 0) E_xDiag E_n E_x).1 s - E_n s) * n' s
        + ∑ s, ((diagonalizeGrad (n 0) (x 0) E_xDiag E_n E_x).2 s - E_x s) * x' s) 0 := by
  refine (hF _ _ rfl (diag_deriv hn hx)).congr_deriv ?_
  simp only [diagonalizeGrad, accum, gradN, Fin.sum_univ_four, Fin.sum_univ_two, Matrix.cons_val_zero, Matrix.cons_val_one, Matrix.cons_val,
    scalarPart, dot, vectorPart, if_true, one_ne_zero, if_false]
  ring

/-- The same where the transformed quantity is the density matrix and both gradients go to one array. -/
theorem C73_gradient_self (F : (Fin 2 → ℝ) → ℝ) (n : ℝ → Spin4) (n' : Spin4) (E_nDiag : Fin 2 → ℝ) (E_n : Spin4)
    (hF : GradientAt F E_nDiag (diagonalize (n 0) (n 0)))
    (hn : ∀ s, HasDerivAt (fun t => n t s) (n' s) 0) :
    HasDerivAt (fun t => F (diagonalize (n t) (n t)))
      (∑ s, (diagonalizeGradSelf (n 0) E_nDiag E_n s - E_n s) * n' s) 0 := by
  refine (hF _ _ rfl (diag_deriv hn hn)).congr_deriv ?_
  simp only [diagonalizeGradSelf, accum, gradN, Fin.sum_univ_four, Fin.sum_univ_two, Matrix.cons_val_zero, Matrix.cons_val_one, Matrix.cons_val,
    scalarPart, dot, vectorPart, if_true, one_ne_zero, if_false]
  ring

/-- A spin rotation that is not a permutation, and a density with magnetisation along x that it turns to z. -/
example : ∃ U ∈ Matrix.unitaryGroup (Fin 2) ℂ, Rotated U ![1, 1, 1/2, 0] ![3/2, 1/2, 0, 0] := by
  have h2 : ((Real.sqrt 2 : ℝ) : ℂ) * (Real.sqrt 2 : ℝ) = 2 := by
    exact_mod_cast Real.mul_self_sqrt (show (0:ℝ) ≤ 2 by norm_num)
  have h4 : ((Real.sqrt 2 / 2 : ℝ) : ℂ) * ((Real.sqrt 2 / 2 : ℝ) : ℂ) = 1 / 2 := by
    push_cast; linear_combination (1 / 4 : ℂ) * h2
  refine ⟨!![((Real.sqrt 2 / 2 : ℝ) : ℂ), ((Real.sqrt 2 / 2 : ℝ) : ℂ); ((Real.sqrt 2 / 2 : ℝ) : ℂ), -((Real.sqrt 2 / 2 : ℝ) : ℂ)], ?_, ?_⟩
  · rw [Matrix.mem_unitaryGroup_iff]
    generalize Real.sqrt 2 / 2 = a at h4
    ext i j
    fin_cases i <;> fin_cases j <;>
      simp [Matrix.mul_apply, Matrix.star_eq_conjTranspose, Matrix.conjTranspose_apply, Fin.sum_univ_two] <;>
      linear_combination 2 * h4
  · generalize Real.sqrt 2 / 2 = a at h4
    ext i j
    fin_cases i <;> fin_cases j <;>
      simp [spinMatrix, Matrix.mul_apply, Matrix.conjTranspose_apply, Fin.sum_univ_two] <;>
      first | ring1 | linear_combination (-1) * h4 | linear_combination (-2) * h4 | linear_combination (-3) * h4

/-- A function with a gradient in the sense used above. -/
example : GradientAt (fun p => p 0 * p 1 ^ 2) ![9, 12] ![2, 3] := by
  intro c c' h0 hc
  refine ((hc 0).mul ((hc 1).pow 2)).congr_deriv ?_
  simp [h0, Fin.sum_univ_two]; ring

end
end Jdftx.SpinDiag
