import Verif.Model.Euler
import Verif.Spec.Euler
import Verif.Lemmas.Mat3
import Mathlib.LinearAlgebra.Matrix.NonsingularInverse
import Mathlib.Tactic.LinearCombination
import Mathlib.Tactic.Linarith
import Mathlib.Tactic.Positivity
import Mathlib.Tactic.FieldSimp
import Mathlib.Data.Fintype.Basic
import Mathlib.Algebra.BigOperators.Fin

/-!
# Euler angles (C56) and spinor rotations (C66)
-/
noncomputable section
namespace Jdftx.Euler
open M3

/-- What is used of a rotation: entries equal to their cofactors, and three unit rows or columns. -/
structure Facts (m : Mat ℝ) : Prop where
  c00 : m 0 0 = m 1 1 * m 2 2 - m 1 2 * m 2 1
  c01 : m 0 1 = m 1 2 * m 2 0 - m 1 0 * m 2 2
  c02 : m 0 2 = m 1 0 * m 2 1 - m 1 1 * m 2 0
  c10 : m 1 0 = m 0 2 * m 2 1 - m 0 1 * m 2 2
  c11 : m 1 1 = m 0 0 * m 2 2 - m 0 2 * m 2 0
  c12 : m 1 2 = m 0 1 * m 2 0 - m 0 0 * m 2 1
  row2 : m 2 0 ^ 2 + m 2 1 ^ 2 + m 2 2 ^ 2 = 1
  row1 : m 1 0 ^ 2 + m 1 1 ^ 2 + m 1 2 ^ 2 = 1
  col2 : m 0 2 ^ 2 + m 1 2 ^ 2 + m 2 2 ^ 2 = 1

theorem orthogonal_mul (m : Mat ℝ) (h : Orthogonal m) : Matrix.of m * (Matrix.of m).transpose = 1 ∧ (Matrix.of m).transpose * Matrix.of m = 1 := by
  have h1 : Matrix.of m * (Matrix.of m).transpose = 1 := by
    ext i j
    have := h i j
    rw [Matrix.mul_apply, Fin.sum_univ_three, Matrix.one_apply]
    exact this
  exact ⟨h1, mul_eq_one_comm.1 h1⟩

theorem facts (m : Mat ℝ) (h : Rotation m) : Facts m := by
  obtain ⟨h1, h2⟩ := orthogonal_mul m h.1
  have hadj : (Matrix.of m).adjugate = (Matrix.of m).transpose := by
    calc (Matrix.of m).adjugate = (Matrix.of m).adjugate * (Matrix.of m * (Matrix.of m).transpose) := by rw [h1, mul_one]
      _ = ((Matrix.of m).adjugate * Matrix.of m) * (Matrix.of m).transpose := by rw [mul_assoc]
      _ = _ := by rw [Matrix.adjugate_mul, h.2, one_smul, one_mul]
  have e : ∀ i j, adjugate m i j = m j i := fun i j => by
    have := congrFun (congrFun hadj i) j
    rw [← adjugate_eq] at this
    exact this
  have col : m 0 2 * m 0 2 + m 1 2 * m 1 2 + m 2 2 * m 2 2 = 1 := by
    have := congrFun (congrFun h2 2) 2
    rw [Matrix.mul_apply, Fin.sum_univ_three] at this
    exact this
  have r2 : m 2 0 * m 2 0 + m 2 1 * m 2 1 + m 2 2 * m 2 2 = 1 := h.1 2 2
  have r1 : m 1 0 * m 1 0 + m 1 1 * m 1 1 + m 1 2 * m 1 2 = 1 := h.1 1 1
  have e00 : m 1 1 * m 2 2 - m 1 2 * m 2 1 = m 0 0 := e 0 0
  have e10 : m 1 2 * m 2 0 - m 1 0 * m 2 2 = m 0 1 := e 1 0
  have e20 : m 1 0 * m 2 1 - m 1 1 * m 2 0 = m 0 2 := e 2 0
  have e01 : m 2 1 * m 0 2 - m 2 2 * m 0 1 = m 1 0 := e 0 1
  have e11 : m 2 2 * m 0 0 - m 2 0 * m 0 2 = m 1 1 := e 1 1
  have e21 : m 2 0 * m 0 1 - m 2 1 * m 0 0 = m 1 2 := e 2 1
  exact ⟨e00.symm, e10.symm, e20.symm, by linarith, by linarith, by linarith, by linarith, by linarith, by linarith⟩

/-- The entries of `matrixFromEuler`. -/
theorem matrixFromEuler_eq (e : V3 ℝ) : matrixFromEuler e = vec
    (vec (Real.cos (e 0) * Real.cos (e 1) * Real.cos (e 2) - Real.sin (e 0) * Real.sin (e 2)) (Real.cos (e 0) * Real.cos (e 1) * Real.sin (e 2) + Real.sin (e 0) * Real.cos (e 2)) (-(Real.cos (e 0) * Real.sin (e 1))))
    (vec (-(Real.sin (e 0) * Real.cos (e 1) * Real.cos (e 2)) - Real.cos (e 0) * Real.sin (e 2)) (-(Real.sin (e 0) * Real.cos (e 1) * Real.sin (e 2)) + Real.cos (e 0) * Real.cos (e 2)) (Real.sin (e 0) * Real.sin (e 1)))
    (vec (Real.sin (e 1) * Real.cos (e 2)) (Real.sin (e 1) * Real.sin (e 2)) (Real.cos (e 1))) := by
  funext i j
  match i, j with
  | 0, 0 | 0, 1 | 0, 2 | 1, 0 | 1, 1 | 1, 2 | 2, 0 | 2, 1 | 2, 2 => simp [matrixFromEuler, mulMM, rotation, vec]; try ring

theorem atan2_spec (y x r : ℝ) (hr : 0 < r) (h : x ^ 2 + y ^ 2 = r ^ 2) : Real.cos (atan2 y x) * r = x ∧ Real.sin (atan2 y x) * r = y := by
  have hn : ‖(⟨x, y⟩ : ℂ)‖ = r := by
    rw [Complex.norm_eq_sqrt_sq_add_sq]
    simp only
    rw [h]; exact Real.sqrt_sq hr.le
  have hz : (⟨x, y⟩ : ℂ) ≠ 0 := by
    intro h0; rw [h0, norm_zero] at hn; linarith
  unfold atan2
  rw [Complex.cos_arg hz, Complex.sin_arg, hn]
  exact ⟨by field_simp, by field_simp⟩

/-- For a matrix that is not close to a rotation about the polar axis, the angles reproduce it exactly. -/
theorem generic (m : Mat ℝ) (h : Facts m) (hg : |m 2 2| ≤ 1 - 1e-7) : matrixFromEuler (eulerFromMatrix m) = m := by
  have hlt : |m 2 2| < 1 := by norm_num at hg ⊢; linarith
  have hb := abs_lt.1 hlt
  have hs2 : 0 < 1 - m 2 2 ^ 2 := by nlinarith
  obtain ⟨s, hs, hss⟩ : ∃ s : ℝ, 0 < s ∧ s ^ 2 = 1 - m 2 2 ^ 2 := ⟨Real.sqrt (1 - m 2 2 ^ 2), Real.sqrt_pos.2 hs2, Real.sq_sqrt hs2.le⟩
  have hsin : Real.sin (Real.arccos (m 2 2)) = s := by
    rw [Real.sin_arccos, ← hss]; exact Real.sqrt_sq hs.le
  have hcos : Real.cos (Real.arccos (m 2 2)) = m 2 2 := Real.cos_arccos hb.1.le hb.2.le
  obtain ⟨ca, sa⟩ := atan2_spec (m 1 2) (-(m 0 2)) s hs (by rw [hss]; linarith [h.col2])
  obtain ⟨cg, sg⟩ := atan2_spec (m 2 1) (m 2 0) s hs (by rw [hss]; linarith [h.row2])
  rw [matrixFromEuler_eq]
  unfold eulerFromMatrix
  rw [if_neg (not_lt.2 hg)]
  simp only [vec, hsin, hcos]
  generalize Real.cos (atan2 (m 1 2) (-(m 0 2))) = cA at *
  generalize Real.sin (atan2 (m 1 2) (-(m 0 2))) = sA at *
  generalize Real.cos (atan2 (m 2 1) (m 2 0)) = cG at *
  generalize Real.sin (atan2 (m 2 1) (m 2 0)) = sG at *
  have hne : s ^ 2 ≠ 0 := by positivity
  have key : ∀ x y : ℝ, x * s ^ 2 = y * s ^ 2 → x = y := fun x y hxy => mul_right_cancel₀ hne hxy
  funext i j
  match i, j with
  | 0, 0 =>
    apply key
    calc (cA * m 2 2 * cG - sA * sG) * s ^ 2 = (cA * s) * m 2 2 * (cG * s) - (sA * s) * (sG * s) := by ring
      _ = m 0 0 * s ^ 2 := by rw [ca, sa, cg, sg, hss]; linear_combination -h.c00 - m 2 2 * h.c11
  | 0, 1 =>
    apply key
    calc (cA * m 2 2 * sG + sA * cG) * s ^ 2 = (cA * s) * m 2 2 * (sG * s) + (sA * s) * (cG * s) := by ring
      _ = m 0 1 * s ^ 2 := by rw [ca, sa, cg, sg, hss]; linear_combination -h.c01 + m 2 2 * h.c10
  | 0, 2 => show -(cA * s) = _; linarith
  | 1, 0 =>
    apply key
    calc (-(sA * m 2 2 * cG) - cA * sG) * s ^ 2 = -((sA * s) * m 2 2 * (cG * s)) - (cA * s) * (sG * s) := by ring
      _ = m 1 0 * s ^ 2 := by rw [ca, sa, cg, sg, hss]; linear_combination -h.c10 + m 2 2 * h.c01
  | 1, 1 =>
    apply key
    calc (-(sA * m 2 2 * sG) + cA * cG) * s ^ 2 = -((sA * s) * m 2 2 * (sG * s)) + (cA * s) * (cG * s) := by ring
      _ = m 1 1 * s ^ 2 := by rw [ca, sa, cg, sg, hss]; linear_combination -h.c11 - m 2 2 * h.c00
  | 1, 2 => show sA * s = _; linarith
  | 2, 0 => show s * cG = _; linarith
  | 2, 1 => show s * sG = _; linarith
  | 2, 2 => rfl

/-- Close to the polar axis: with `t = ±1` the sign of `m 2 2`. -/
theorem gimbal (m : Mat ℝ) (h : Facts m) (hg : 1 - 1e-7 < |m 2 2|) : ∃ (t r : ℝ), (t = 1 ∨ t = -1) ∧ t * m 2 2 = |m 2 2| ∧ 0 < r ∧ r ^ 2 = m 1 0 ^ 2 + m 1 1 ^ 2 ∧
    matrixFromEuler (eulerFromMatrix m) = vec (vec (t * (m 1 1 / r)) (-(t * (m 1 0 / r))) 0) (vec (m 1 0 / r) (m 1 1 / r) 0) (vec 0 0 t) := by
  have hm2 : (1 - 1e-7) ^ 2 < m 2 2 ^ 2 := by
    rw [← sq_abs (m 2 2)]
    have : (0 : ℝ) ≤ 1 - 1e-7 := by norm_num
    exact pow_lt_pow_left₀ hg this (by norm_num)
  have hr2 : 0 < m 1 0 ^ 2 + m 1 1 ^ 2 := by
    have h1 := h.row1
    have h2 := h.col2
    have : m 1 2 ^ 2 ≤ 1 - m 2 2 ^ 2 := by nlinarith [sq_nonneg (m 0 2)]
    norm_num at hm2
    nlinarith
  obtain ⟨r, hr, hrr⟩ : ∃ r : ℝ, 0 < r ∧ r ^ 2 = m 1 0 ^ 2 + m 1 1 ^ 2 := ⟨Real.sqrt _, Real.sqrt_pos.2 hr2, Real.sq_sqrt hr2.le⟩
  obtain ⟨cg, sg⟩ := atan2_spec (-(m 1 0)) (m 1 1) r hr (by rw [hrr]; ring)
  have cg' : Real.cos (atan2 (-(m 1 0)) (m 1 1)) = m 1 1 / r := by rw [eq_div_iff hr.ne']; exact cg
  have sg' : Real.sin (atan2 (-(m 1 0)) (m 1 1)) = -(m 1 0) / r := by rw [eq_div_iff hr.ne']; exact sg
  have habs : |m 2 2| > 1 - 1e-7 := hg
  by_cases hpos : m 2 2 > 0
  · refine ⟨1, r, Or.inl rfl, by rw [one_mul, abs_of_pos hpos], hr, hrr, ?_⟩
    rw [matrixFromEuler_eq]
    unfold eulerFromMatrix
    rw [if_pos habs, if_pos hpos]
    simp only [vec, cg', sg']
    funext i j
    match i, j with
    | 0, 0 | 0, 1 | 0, 2 | 1, 0 | 1, 1 | 1, 2 | 2, 0 | 2, 1 | 2, 2 => simp; try ring_nf
  · refine ⟨-1, r, Or.inr rfl, by rw [abs_of_nonpos (not_lt.1 hpos)]; ring, hr, hrr, ?_⟩
    rw [matrixFromEuler_eq]
    unfold eulerFromMatrix
    rw [if_pos habs, if_neg hpos]
    simp only [vec, cg', sg']
    funext i j
    match i, j with
    | 0, 0 | 0, 1 | 0, 2 | 1, 0 | 1, 1 | 1, 2 | 2, 0 | 2, 1 | 2, 2 => simp; try ring_nf

theorem close_aux (m : Mat ℝ) (hf : Facts m) (hg : 1 - 1e-7 < |m 2 2|) (r : ℝ) (hr : 0 < r) (hrr : r ^ 2 = m 1 0 ^ 2 + m 1 1 ^ 2) :
    |m 2 2| ≤ 1 ∧ m 0 2 ^ 2 ≤ 2e-7 ∧ m 1 2 ^ 2 ≤ 2e-7 ∧ m 2 0 ^ 2 ≤ 2e-7 ∧ m 2 1 ^ 2 ≤ 2e-7 ∧ |m 1 0 / r - m 1 0| ≤ 2e-7 ∧ |m 1 1 / r - m 1 1| ≤ 2e-7 := by
  set a := |m 2 2| with ha
  have ha1 : 1 - 1e-7 < a := hg
  have hasq : m 2 2 ^ 2 = a ^ 2 := (sq_abs _).symm
  have ha2 : a ≤ 1 := by
    have := hf.row2
    rw [hasq] at this
    nlinarith [sq_nonneg (m 2 0), sq_nonneg (m 2 1), abs_nonneg (m 2 2)]
  have hsmall : 1 - a ^ 2 ≤ 2e-7 := by norm_num at ha1 ⊢; nlinarith
  have s02 : m 0 2 ^ 2 ≤ 2e-7 := by have := hf.col2; rw [hasq] at this; nlinarith [sq_nonneg (m 1 2)]
  have s12 : m 1 2 ^ 2 ≤ 2e-7 := by have := hf.col2; rw [hasq] at this; nlinarith [sq_nonneg (m 0 2)]
  have s20 : m 2 0 ^ 2 ≤ 2e-7 := by have := hf.row2; rw [hasq] at this; nlinarith [sq_nonneg (m 2 1)]
  have s21 : m 2 1 ^ 2 ≤ 2e-7 := by have := hf.row2; rw [hasq] at this; nlinarith [sq_nonneg (m 2 0)]
  have hrr1 : r ^ 2 ≤ 1 := by rw [hrr]; have := hf.row1; nlinarith [sq_nonneg (m 1 2)]
  have hrr2 : 1 - 2e-7 ≤ r ^ 2 := by rw [hrr]; have := hf.row1; linarith
  have hr1 : r ≤ 1 := by nlinarith
  have hr2 : 1 - 2e-7 ≤ r := by nlinarith
  -- dividing an entry by `r` hardly changes it
  have hdiv : ∀ x : ℝ, x ^ 2 ≤ r ^ 2 → |x / r - x| ≤ 2e-7 := by
    intro x hx
    have h1 : |x| ≤ r := abs_le_of_sq_le_sq hx hr.le
    have : x / r - x = (x / r) * (1 - r) := by field_simp
    rw [this, abs_mul, abs_of_nonneg (by linarith : (0:ℝ) ≤ 1 - r), abs_div, abs_of_pos hr]
    have : |x| / r ≤ 1 := (div_le_one hr).2 h1
    nlinarith [abs_nonneg x, div_nonneg (abs_nonneg x) hr.le]
  have d10 := hdiv (m 1 0) (by rw [hrr]; nlinarith [sq_nonneg (m 1 1)])
  have d11 := hdiv (m 1 1) (by rw [hrr]; nlinarith [sq_nonneg (m 1 0)])
  exact ⟨ha2, s02, s12, s20, s21, d10, d11⟩

theorem close (m : Mat ℝ) (hf : Facts m) (hg : 1 - 1e-7 < |m 2 2|) (i j : Fin 3) : |matrixFromEuler (eulerFromMatrix m) i j - m i j| ≤ 1 / 2000 := by
  obtain ⟨t, r, ht, htm, hr, hrr, heq⟩ := gimbal m hf hg
  have ht2 : t ^ 2 = 1 := by rcases ht with rfl | rfl <;> norm_num
  obtain ⟨ha2, s02, s12, s20, s21, d10, d11⟩ := close_aux m hf hg r hr hrr
  set a := |m 2 2| with ha
  have ha1 : 1 - 1e-7 < a := hg
  have small : ∀ x : ℝ, x ^ 2 ≤ 2e-7 → |x| ≤ 1 / 2000 := by
    intro x hx
    apply abs_le_of_sq_le_sq _ (by norm_num)
    norm_num at hx ⊢; linarith
  have htabs : |t| = 1 := by rcases ht with rfl | rfl <;> simp
  have one : ∀ x : ℝ, x ^ 2 ≤ 1 → |x| ≤ 1 := fun x hx => by
    rw [← sq_abs] at hx
    nlinarith [abs_nonneg x]
  have b11 : |m 1 1| ≤ 1 := one _ (by have := hf.row1; nlinarith [sq_nonneg (m 1 0), sq_nonneg (m 1 2)])
  have b10 : |m 1 0| ≤ 1 := one _ (by have := hf.row1; nlinarith [sq_nonneg (m 1 1), sq_nonneg (m 1 2)])
  have hmt : m 2 2 = t * a := by rw [← htm, ← mul_assoc, ← sq, ht2, one_mul]
  have p1 : |m 1 2 * m 2 1| ≤ 2e-7 := by
    rw [abs_mul]
    have h1 := sq_abs (m 1 2); have h2 := sq_abs (m 2 1)
    nlinarith [sq_nonneg (|m 1 2| - |m 2 1|)]
  have p2 : |m 1 2 * m 2 0| ≤ 2e-7 := by
    rw [abs_mul]
    have h1 := sq_abs (m 1 2); have h2 := sq_abs (m 2 0)
    nlinarith [sq_nonneg (|m 1 2| - |m 2 0|)]
  have q : ∀ x y : ℝ, |x| ≤ 1 → |x / r - x| ≤ 2e-7 → |y| ≤ 2e-7 → |t * (x / r) - (x * (t * a) - y)| ≤ 1 / 2000 := by
    intro x y hx hd hy
    have : t * (x / r) - (x * (t * a) - y) = t * (x / r - x) + t * x * (1 - a) + y := by ring
    rw [this]
    have h1 : |t * (x / r - x)| ≤ 2e-7 := by rw [abs_mul, htabs, one_mul]; exact hd
    have h2 : |t * x * (1 - a)| ≤ 1e-7 := by
      rw [abs_mul, abs_mul, htabs, one_mul, abs_of_nonneg (by linarith : (0:ℝ) ≤ 1 - a)]
      norm_num at ha1 ⊢
      nlinarith [abs_nonneg x]
    have h3 := abs_add_le (t * (x / r - x) + t * x * (1 - a)) y
    have h4 := abs_add_le (t * (x / r - x)) (t * x * (1 - a))
    have h5 : (2e-7 : ℝ) + 1e-7 + 2e-7 ≤ 1 / 2000 := by norm_num
    linarith
  rw [heq]
  have w : ∀ x : ℝ, x ≤ 2e-7 → x ≤ 1 / 2000 := by intro x hx; norm_num at hx ⊢; linarith
  match i, j with
  | 0, 0 =>
    have := q (m 1 1) (m 1 2 * m 2 1) b11 d11 p1
    rw [← hmt, ← hf.c00] at this
    simpa [vec] using this
  | 0, 1 =>
    have := q (m 1 0) (m 1 2 * m 2 0) b10 d10 p2
    rw [← hmt, ← abs_neg] at this
    simp only [vec]
    rw [hf.c01]
    convert this using 2
    ring
  | 0, 2 => simpa [vec] using small _ s02
  | 1, 0 => simpa [vec] using w _ d10
  | 1, 1 => simpa [vec] using w _ d11
  | 1, 2 => simpa [vec] using small _ s12
  | 2, 0 => simpa [vec] using small _ s20
  | 2, 1 => simpa [vec] using small _ s21
  | 2, 2 =>
    simp only [vec]
    have : t - m 2 2 = t * (1 - a) := by rw [hmt]; ring
    rw [this, abs_mul, htabs, one_mul, abs_of_nonneg (by linarith)]
    norm_num at ha1 ⊢; linarith

/-- The rotation built from the angles of a rotation matrix is that matrix: exactly, unless the polar axis is within the code's tolerance of
being preserved or reversed without being so exactly; and then to within 1/2000 in every entry. -/
theorem C56_euler (m : Mat ℝ) (h : Rotation m) :
    (|m 2 2| ≤ 1 - 1e-7 ∨ |m 2 2| = 1 → matrixFromEuler (eulerFromMatrix m) = m) ∧
    ∀ i j, |matrixFromEuler (eulerFromMatrix m) i j - m i j| ≤ 1 / 2000 := by
  have hf := facts m h
  have exact1 : |m 2 2| = 1 → matrixFromEuler (eulerFromMatrix m) = m := by
    intro h1
    obtain ⟨t, r, ht, htm, hr, hrr, heq⟩ := gimbal m hf (by rw [h1]; norm_num)
    have hsq : m 2 2 ^ 2 = 1 := by rw [← sq_abs, h1]; norm_num
    have z02 : m 0 2 = 0 := by have := hf.col2; nlinarith [sq_nonneg (m 0 2), sq_nonneg (m 1 2)]
    have z12 : m 1 2 = 0 := by have := hf.col2; nlinarith [sq_nonneg (m 0 2), sq_nonneg (m 1 2)]
    have z20 : m 2 0 = 0 := by have := hf.row2; nlinarith [sq_nonneg (m 2 0), sq_nonneg (m 2 1)]
    have z21 : m 2 1 = 0 := by have := hf.row2; nlinarith [sq_nonneg (m 2 0), sq_nonneg (m 2 1)]
    have hr1 : r = 1 := by
      have := hf.row1
      rw [z12] at this
      have : r ^ 2 = 1 := by rw [hrr]; linarith
      nlinarith
    have htt : t = m 2 2 := by
      rw [h1] at htm
      rcases ht with rfl | rfl <;> linarith
    have e00 : m 0 0 = t * m 1 1 := by rw [hf.c00, z12, htt]; ring
    have e01 : m 0 1 = -(t * m 1 0) := by rw [hf.c01, z12, htt]; ring
    rw [heq, hr1]
    funext i j
    match i, j with
    | 0, 0 => simp [vec, e00]
    | 0, 1 => simp [vec, e01]
    | 0, 2 => simp [vec, z02]
    | 1, 0 => simp [vec]
    | 1, 1 => simp [vec]
    | 1, 2 => simp [vec, z12]
    | 2, 0 => simp [vec, z20]
    | 2, 1 => simp [vec, z21]
    | 2, 2 => simp [vec, htt]
  refine ⟨fun hc => ?_, fun i j => ?_⟩
  · rcases hc with hc | hc
    · exact generic m hf hc
    · exact exact1 hc
  · by_cases hg : |m 2 2| ≤ 1 - 1e-7
    · rw [generic m hf hg]; simp
    · have hg := not_le.1 hg
      exact close m hf hg i j

/-- The matrix of any three angles is a rotation. -/
theorem C56_rotation (e : V3 ℝ) : Rotation (matrixFromEuler e) := by
  have ha := Real.sin_sq_add_cos_sq (e 0)
  have hb := Real.sin_sq_add_cos_sq (e 1)
  have hg := Real.sin_sq_add_cos_sq (e 2)
  have hrot : ∀ t n, Orthogonal (rotation t n) ∧ det (rotation t n) = 1 := by
    intro t n
    have ht := Real.sin_sq_add_cos_sq t
    match n with
    | 0 | 1 | n+2 =>
      refine ⟨fun i j => ?_, ?_⟩
      · match i, j with
        | 0, 0 | 0, 1 | 0, 2 | 1, 0 | 1, 1 | 1, 2 | 2, 0 | 2, 1 | 2, 2 => simp [rotation, dot, vec]; try linarith
      · simp [det, box, dot, cross, row, rotation, vec]; try linarith
  have hmul : ∀ a b, Orthogonal a → Orthogonal b → Orthogonal (mulMM a b) := by
    intro a b ha hb i j
    have h1 := (orthogonal_mul a ha).1
    have h2 := (orthogonal_mul b hb).1
    have : Matrix.of (mulMM a b) * (Matrix.of (mulMM a b)).transpose = 1 := by
      rw [mulMM_eq, Matrix.transpose_mul, mul_assoc, ← mul_assoc (Matrix.of b), h2, one_mul, h1]
    have := congrFun (congrFun this i) j
    rw [Matrix.mul_apply, Fin.sum_univ_three, Matrix.one_apply] at this
    exact this
  refine ⟨hmul _ _ (hmul _ _ (hrot _ _).1 (hrot _ _).1) (hrot _ _).1, ?_⟩
  unfold matrixFromEuler
  rw [mulMM_eq, mulMM_eq, Matrix.det_mul, Matrix.det_mul, ← det_eq, ← det_eq, ← det_eq, (hrot _ _).2, (hrot _ _).2, (hrot _ _).2]
  norm_num

/-- The rotation by 90 degrees about the first axis is recovered exactly. -/
example : matrixFromEuler (eulerFromMatrix (vec (vec 1 0 0) (vec 0 0 1) (vec 0 (-1) 0))) = vec (vec 1 0 0) (vec 0 0 1) (vec 0 (-1) 0) := by
  refine (C56_euler _ ⟨fun i j => ?_, ?_⟩).1 (Or.inl ?_)
  · match i, j with
    | 0, 0 | 0, 1 | 0, 2 | 1, 0 | 1, 1 | 1, 2 | 2, 0 | 2, 1 | 2, 2 => simp [dot, vec]
  · rw [← det_eq]; simp [det, box, dot, cross, row, vec]
  · norm_num [vec]

/-- The two polar angles found for a direction reproduce it, unless it is within the code's tolerance of the polar axis. -/
theorem C56_axis (z : V3 ℝ) (hz : 0 < dot z z) (hp : ¬ Real.arccos (z 2 / Real.sqrt (dot z z)) * (Real.pi - Real.arccos (z 2 / Real.sqrt (dot z z))) < 1e-6) (i : Fin 3) :
    polarUnitVector (getEulerAxis z).1 (getEulerAxis z).2 i * Real.sqrt (dot z z) = z i := by
  unfold getEulerAxis
  simp only
  rw [if_neg hp]
  obtain ⟨r, hr, hrr⟩ : ∃ r : ℝ, 0 < r ∧ r ^ 2 = dot z z := ⟨Real.sqrt _, Real.sqrt_pos.2 hz, Real.sq_sqrt hz.le⟩
  have hsq : Real.sqrt (dot z z) = r := by rw [← hrr]; exact Real.sqrt_sq hr.le
  rw [hsq] at hp ⊢
  have hd : z 0 ^ 2 + z 1 ^ 2 + z 2 ^ 2 = r ^ 2 := by rw [hrr]; simp only [dot]; ring
  have hle : |z 2| ≤ r := abs_le_of_sq_le_sq (by nlinarith [sq_nonneg (z 0), sq_nonneg (z 1)]) hr.le
  have hb := abs_le.1 hle
  have hcos : Real.cos (Real.arccos (z 2 / r)) = z 2 / r := Real.cos_arccos (by rw [le_div_iff₀ hr]; linarith) (by rw [div_le_iff₀ hr]; linarith)
  have hsin0 : 0 ≤ Real.sin (Real.arccos (z 2 / r)) := Real.sin_nonneg_of_nonneg_of_le_pi (Real.arccos_nonneg _) (Real.arccos_le_pi _)
  have hsin2 : (Real.sin (Real.arccos (z 2 / r)) * r) ^ 2 = z 0 ^ 2 + z 1 ^ 2 := by
    have h1 := Real.sin_sq_add_cos_sq (Real.arccos (z 2 / r))
    rw [hcos] at h1
    have h2 : (z 2 / r) ^ 2 * r ^ 2 = z 2 ^ 2 := by field_simp
    calc (Real.sin (Real.arccos (z 2 / r)) * r) ^ 2 = Real.sin (Real.arccos (z 2 / r)) ^ 2 * r ^ 2 := by ring
      _ = (1 - (z 2 / r) ^ 2) * r ^ 2 := by rw [← h1]; ring
      _ = _ := by rw [sub_mul, h2, ← hd]; ring
  have hspos : 0 < Real.sin (Real.arccos (z 2 / r)) := by
    have h0 := Real.arccos_nonneg (z 2 / r)
    have h1 := Real.arccos_le_pi (z 2 / r)
    refine Real.sin_pos_of_pos_of_lt_pi (lt_of_le_of_ne h0 fun h => hp ?_) (lt_of_le_of_ne h1 fun h => hp ?_)
    · rw [← h]; norm_num
    · rw [h]; norm_num
  obtain ⟨ca, sa⟩ := atan2_spec (z 1) (z 0) _ (mul_pos hspos hr) hsin2.symm
  match i with
  | 0 => simp only [polarUnitVector, vec]; linarith
  | 1 => simp only [polarUnitVector, vec]; linarith
  | 2 => simp only [polarUnitVector, vec]; rw [hcos]; field_simp

/-- The third axis of the rotated frame is *not* the vector that `polarUnitVector` gives for the same angles: its first component has the
opposite sign, because the elementary rotations of `rotation` turn in the other sense. -/
theorem C56_polar_violation (e : V3 ℝ) :
    mulMV (matrixFromEuler e) (vec 0 0 1) = vec (-(polarUnitVector (e 0) (e 1) 0)) (polarUnitVector (e 0) (e 1) 1) (polarUnitVector (e 0) (e 1) 2) := by
  rw [matrixFromEuler_eq]
  funext i
  match i with
  | 0 | 1 | 2 => simp [mulMV, polarUnitVector, vec]; try ring

example : mulMV (matrixFromEuler (vec 0 (Real.pi / 2) 0)) (vec 0 0 1) ≠ polarUnitVector 0 (Real.pi / 2) := by
  rw [C56_polar_violation]
  intro h
  have := congrFun h 0
  simp [polarUnitVector, vec] at this
  norm_num at this

end Jdftx.Euler
