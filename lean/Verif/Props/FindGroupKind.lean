import Verif.Props.FindGroup
import Mathlib.LinearAlgebra.Matrix.NonsingularInverse

/-!
# C90: which atoms are images of each other (magnetic moments and constraints)
-/
namespace Jdftx.FindGroup
open Jdftx.M3
noncomputable section
open Classical

/-- `Q` is the Cartesian form of the rotation: it takes every lattice vector to the lattice vector that the integer matrix names. -/
def Cartesian (R : Mat ℝ) (rot : Mat Int) (Q : Mat ℝ) : Prop := mulMM Q R = mulMM R (castMat rot)

/-- The angle between `u` and `v`, or between `u` and `-v`, has a cosine above `1 - thr`. -/
def AlongLine (thr : ℝ) (u v : V3 ℝ) : Prop := (1 - thr) * (Real.sqrt (dot u u) * Real.sqrt (dot v v)) < |dot u v|

theorem rotCart_eq {R Q : Mat ℝ} {rot : Mat Int} (hR : det R ≠ 0) (h : Cartesian R rot Q) : rotCart R rot = Q := by
  have hu : IsUnit (Matrix.of R).det := by rw [← det_eq]; exact isUnit_iff_ne_zero.2 hR
  have hinv : Matrix.of (inv3 R) = (Matrix.of R)⁻¹ := by
    rw [inv3, smul_eq, adjugate_eq, Matrix.inv_def, det_eq, one_div, Ring.inverse_eq_inv']
  have : Matrix.of (rotCart R rot) = Matrix.of Q := by
    rw [rotCart, mulMM_eq, ← h, mulMM_eq, hinv, Matrix.mul_assoc, Matrix.mul_nonsing_inv _ hu, Matrix.mul_one]
  exact Matrix.of.injective this

theorem det_cartesian {R Q : Mat ℝ} {rot : Mat Int} (hR : det R ≠ 0) (h : Cartesian R rot Q) : det Q = ((det rot : Int) : ℝ) := by
  have e := congrArg (fun m : Mat ℝ => (Matrix.of m).det) h
  simp only [mulMM_eq, Matrix.det_mul] at e
  have hc : (Matrix.of (castMat rot : Mat ℝ)).det = ((det rot : Int) : ℝ) := by
    rw [castMat_eq, det_eq]
    exact (RingHom.map_det (Int.castRingHom ℝ) (Matrix.of rot)).symm
  rw [hc] at e
  rw [det_eq]
  have hR' : (Matrix.of R).det ≠ 0 := by rw [← det_eq]; exact hR
  exact mul_right_cancel₀ hR' (by rw [e]; ring)

/-- **C90 (moments).** An atom can be the image of another only if its magnetic moment is that of the other within the threshold, after the operation: with vector spins moments rotate like axial vectors
(they do not change under inversion), otherwise they do not rotate. -/
theorem C90_moments (c : Cfg) (hthr : 0 < c.thr) (hR : det c.R ≠ 0) (sp : Species) (m : Nat → V3 ℝ) (hm : sp.mom = some m) (rot : Mat Int) (hrot : det rot = 1 ∨ det rot = -1)
    (Q : Mat ℝ) (hQ : Cartesian c.R rot Q) (a b : Nat) :
    momOk c sp rot a b ↔
      Real.sqrt (∑ k, ((if c.spinVector then ((det rot : Int) : ℝ) * mulMV Q (m a) k else m a k) - m b k) ^ 2) < c.thr := by
  have e : ∀ k, momRot c rot (m a) k = if c.spinVector then ((det rot : Int) : ℝ) * mulMV Q (m a) k else m a k := by
    intro k
    unfold momRot
    split
    · rw [rotSpin, rotCart_eq hR hQ, det_cartesian hR hQ]
      have : (1 : ℝ) / ((det rot : Int) : ℝ) = ((det rot : Int) : ℝ) := by rcases hrot with h | h <;> rw [h] <;> norm_num
      rw [this, mulMV_eq, smul_eq, Matrix.smul_mulVec, mulMV_eq, Pi.smul_apply, smul_eq_mul]
    · rfl
  unfold momOk
  rw [hm]
  simp only [magMomEquivalent]
  rw [Real.sqrt_lt' hthr, pow_two c.thr, Fin.sum_univ_three]
  simp only [dot, ← e, pow_two]

theorem cauchy (u v : V3 ℝ) : |dot u v| ≤ Real.sqrt (dot u u) * Real.sqrt (dot v v) := by
  rw [← Real.sqrt_mul (by unfold dot; nlinarith [mul_self_nonneg (u 0), mul_self_nonneg (u 1), mul_self_nonneg (u 2)])]
  refine Real.abs_le_sqrt ?_
  unfold dot
  nlinarith [sq_nonneg (u 0 * v 1 - u 1 * v 0), sq_nonneg (u 0 * v 2 - u 2 * v 0), sq_nonneg (u 1 * v 2 - u 2 * v 1)]

theorem parallel_iff (thr : ℝ) (u v : V3 ℝ) (hu : 0 < len u) (hv : 0 < len v) : isParallel thr u v ↔ AlongLine thr u v := by
  have hc := cauchy u v
  unfold isParallel AlongLine
  have hp : 0 < len u * len v := mul_pos hu hv
  rw [abs_div, abs_of_pos hp]
  have h1 : |dot u v| / (len u * len v) ≤ 1 := (div_le_one hp).2 hc
  rw [abs_of_nonneg (by linarith), sub_lt_comm, lt_div_iff₀ hp]
  rfl

theorem len_pos_of_ne {u : V3 ℝ} (h : u ≠ 0) : 0 < len u := by
  unfold len
  rw [Real.sqrt_pos]
  obtain ⟨k, hk⟩ := Function.ne_iff.1 h
  have hk' : 0 < u k * u k := mul_self_pos.2 hk
  refine lt_of_lt_of_le hk' ?_
  have h0 := mul_self_nonneg (u 0)
  have h1 := mul_self_nonneg (u 1)
  have h2 := mul_self_nonneg (u 2)
  unfold dot
  clear hk' hk
  fin_cases k
  · change u 0 * u 0 ≤ _; linarith
  · change u 1 * u 1 ≤ _; linarith
  · change u 2 * u 2 ≤ _; linarith

theorem rotated_ne {R Q : Mat ℝ} {rot : Mat Int} (hR : det R ≠ 0) (h : Cartesian R rot Q) (hrot : det rot = 1 ∨ det rot = -1) {d : V3 ℝ} (hd : d ≠ 0) : mulMV Q d ≠ 0 := by
  intro hz
  have hdet : (Matrix.of Q).det ≠ 0 := by
    rw [← det_eq, det_cartesian hR h]
    rcases hrot with h | h <;> rw [h] <;> norm_num
  rw [mulMV_eq] at hz
  have := Matrix.mulVec_injective_of_isUnit ((Matrix.isUnit_iff_isUnit_det _).2 (isUnit_iff_ne_zero.2 hdet))
  exact hd (this (by rw [hz, Matrix.mulVec_zero]))

/-- **C90 (constraints).** Two atoms have equivalent constraints only if they move with the same scale, have constraints of the same type, and, for lines and planes (longer than the squared threshold), the rotated
direction of one is along that of the other. -/
theorem C90_constraints (thr : ℝ) (hthr : 0 < thr) (R : Mat ℝ) (hR : det R ≠ 0) (rot : Mat Int) (hrot : det rot = 1 ∨ det rot = -1) (Q : Mat ℝ) (hQ : Cartesian R rot Q) (x y : Ion.Constraint ℝ String)
    (hx : ∀ d, x.type = .linear d ∨ x.type = .planar d → thr * thr < Real.sqrt (dot d d)) (hy : ∀ d, y.type = .linear d ∨ y.type = .planar d → thr * thr < Real.sqrt (dot d d)) :
    isEquivalent thr x y (rotCart R rot) ↔ x.moveScale = y.moveScale ∧
      match x.type, y.type with
      | .none, .none => True
      | .linear d, .linear d' => AlongLine thr (mulMV Q d) d'
      | .planar d, .planar d' => AlongLine thr (mulMV Q d) d'
      | .hyperPlane _, .hyperPlane _ => True
      | _, _ => False := by
  rw [rotCart_eq hR hQ]
  obtain ⟨sx, tx⟩ := x
  obtain ⟨sy, ty⟩ := y
  have hz : len (fun _ => (0 : ℝ)) < thr * thr := by
    have : len (fun _ => (0 : ℝ)) = 0 := by simp [len, dot]
    rw [this]; positivity
  have hne : ∀ d : V3 ℝ, thr * thr < Real.sqrt (dot d d) → d ≠ 0 := by
    rintro d h rfl
    have : Real.sqrt (dot (0 : V3 ℝ) 0) = 0 := by simp [dot]
    rw [this] at h
    nlinarith [mul_pos hthr hthr]
  have key : ∀ d d' : V3 ℝ, thr * thr < Real.sqrt (dot d d) → thr * thr < Real.sqrt (dot d' d') →
      (((len d < thr * thr ∧ len d' < thr * thr) ∨ ((thr * thr < len d ∧ thr * thr < len d') ∧ isParallel thr (mulMV Q d) d')) ↔ AlongLine thr (mulMV Q d) d') := by
    intro d d' h h'
    rw [parallel_iff thr _ _ (len_pos_of_ne (rotated_ne hR hQ hrot (hne d h))) (len_pos_of_ne (hne d' h'))]
    constructor
    · rintro (⟨h1, -⟩ | ⟨-, h1⟩)
      · exact absurd h1 (not_lt.2 (le_of_lt h))
      · exact h1
    · intro h1
      exact Or.inr ⟨⟨h, h'⟩, h1⟩
  unfold isEquivalent
  by_cases hs : sx = sy
  · subst hs
    cases tx <;> cases ty <;> simp only [ne_eq, not_true_eq_false, if_false, tagOf, dirOf, true_and]
    all_goals try simp only [reduceCtorEq, Nat.reduceEqDiff, not_false_eq_true, if_true, false_or, true_or, OfNat.ofNat_ne_zero, one_ne_zero]
    · exact key _ _ (hx _ (Or.inl rfl)) (hy _ (Or.inl rfl))
    · exact key _ _ (hx _ (Or.inr rfl)) (hy _ (Or.inr rfl))
    · simp [hz]
  · simp [hs]

/-- **C90 (collective constraints).** Hyperplane constraints are never compared: atoms constrained along different directions are taken as images of each other by every operation. -/
theorem C90_hyperplane_violation (thr : ℝ) (hthr : 0 < thr) (s : ℝ) (p q : List (V3 ℝ × String)) (T : Mat ℝ) : isEquivalent thr ⟨s, .hyperPlane p⟩ ⟨s, .hyperPlane q⟩ T := by
  have hz : len (fun _ => (0 : ℝ)) < thr * thr := by
    have : len (fun _ => (0 : ℝ)) = 0 := by simp [len, dot]
    rw [this]; positivity
  simp [isEquivalent, tagOf, dirOf, hz]

/-- A mirror plane of the simple cubic lattice. -/
example : Cartesian (diag 2 2 2) (diag (-1) 1 1) (diag (-1) 1 1) := by
  funext i j
  fin_cases i <;> fin_cases j <;> simp [mulMM, castMat, diag, vec]

end
end Jdftx.FindGroup
