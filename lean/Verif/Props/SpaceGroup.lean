import Verif.Lemmas.Mat3
import Verif.Model.SpaceGroup

/-!
# C34: space-group operations form a group acting on positions
-/
namespace Jdftx.M3

variable {K : Type} [CommRing K]

omit [CommRing K] in
theorem Op.ext' {p q : Op K} (h1 : p.rot = q.rot) (h2 : p.a = q.a) : p = q := by
  cases p; cases q; simp_all

/-- Composition acts on positions as the second operation followed by the first. -/
theorem C34_compose (p q : Op K) (r : V3 K) : (p.mul q).applyReal r = p.applyReal (q.applyReal r) := by
  funext i
  have e : q.applyReal r = fun i => mulMV (castMat q.rot) r i + q.a i := rfl
  simp only [Op.mul, e]
  simp only [Op.applyReal, mulMV_castMM, mulMV_add (castMat p.rot) (mulMV (castMat q.rot) r) q.a]
  ring

/-- On reciprocal vectors the order is reversed (they transform with the transpose). -/
theorem C34_compose_recip (p q : Op K) (k : V3 K) : (p.mul q).applyRecip k = q.applyRecip (p.applyRecip k) := by
  simp only [Op.mul, Op.applyRecip, mulVM_eq, castMat_eq, mulMM_eq, Matrix.map_mul, Matrix.vecMul_vecMul]

/-- Composition is associative. -/
theorem C34_assoc (p q s : Op K) : (p.mul q).mul s = p.mul (q.mul s) := by
  refine Op.ext' ?_ ?_
  · have : Matrix.of (mulMM (mulMM p.rot q.rot) s.rot) = Matrix.of (mulMM p.rot (mulMM q.rot s.rot)) := by
      simp only [mulMM_eq, Matrix.mul_assoc]
    exact this
  · funext i
    simp only [Op.mul, mulMV_castMM, mulMV_add]
    ring

/-- The default operation is the unit on both sides. -/
theorem C34_unit (p : Op K) : (Op.one.mul p) = p ∧ p.mul Op.one = p := by
  have h0 : (vec 0 0 0 : V3 K) = fun _ => 0 := by funext i; fin_cases i <;> rfl
  constructor
  · refine Op.ext' ?_ ?_
    · have : Matrix.of (mulMM (diag 1 1 1) p.rot) = Matrix.of p.rot := by rw [mulMM_eq, diag_one, one_mul]
      exact this
    · funext i; simp [Op.mul, Op.one, mulMV_one, h0]
  · refine Op.ext' ?_ ?_
    · have : Matrix.of (mulMM p.rot (diag 1 1 1)) = Matrix.of p.rot := by rw [mulMM_eq, diag_one, mul_one]
      exact this
    · funext i; simp [Op.mul, Op.one, h0, mulMV]

/-- The inverse of an operation with determinant `±1` undoes it on both sides. -/
theorem C34_inverse (p : Op K) (h : det p.rot = 1 ∨ det p.rot = -1) :
    p.mul p.inv = Op.one ∧ p.inv.mul p = Op.one := by
  obtain ⟨h1, h2⟩ := mulMM_inv p.rot h
  have e1 : mulMM p.rot (smul (det p.rot) (adjugate p.rot)) = diag 1 1 1 := by
    have : Matrix.of (mulMM p.rot (smul (det p.rot) (adjugate p.rot))) = Matrix.of (diag 1 1 1) := by
      rw [mulMM_eq, h1, diag_one]
    exact this
  have e2 : mulMM (smul (det p.rot) (adjugate p.rot)) p.rot = diag 1 1 1 := by
    have : Matrix.of (mulMM (smul (det p.rot) (adjugate p.rot)) p.rot) = Matrix.of (diag 1 1 1) := by
      rw [mulMM_eq, h2, diag_one]
    exact this
  have h0 : (vec 0 0 0 : V3 K) = fun _ => 0 := by funext i; fin_cases i <;> rfl
  constructor
  · refine Op.ext' e1 ?_
    funext i
    simp only [Op.mul, Op.inv, Op.one, mulMV_neg, ← mulMV_castMM, e1, mulMV_one, h0]
    ring
  · refine Op.ext' e2 ?_
    funext i
    simp only [Op.mul, Op.inv, Op.one, h0]
    ring

/-- Applying an operation and then its inverse returns every position, and vice versa. -/
theorem C34_inverse_applies (p : Op K) (h : det p.rot = 1 ∨ det p.rot = -1) (r : V3 K) :
    p.inv.applyReal (p.applyReal r) = r ∧ p.applyReal (p.inv.applyReal r) = r := by
  have h1 : ∀ r : V3 K, (Op.one : Op K).applyReal r = r := by
    intro r
    have h0 : (vec 0 0 0 : V3 K) = fun _ => 0 := by funext i; fin_cases i <;> rfl
    funext i; simp [Op.one, Op.applyReal, mulMV_one, h0]
  obtain ⟨a, b⟩ := C34_inverse p h
  rw [← C34_compose, ← C34_compose, a, b, h1]; exact ⟨rfl, rfl⟩

/-- The inverse is again unimodular, with the same determinant. -/
theorem C34_inverse_det (p : Op K) (h : det p.rot = 1 ∨ det p.rot = -1) : det p.inv.rot = det p.rot := by
  obtain ⟨h1, _⟩ := mulMM_inv p.rot h
  have h3 : (Matrix.of p.rot).det * (Matrix.of (smul (det p.rot) (adjugate p.rot))).det = 1 := by
    rw [← Matrix.det_mul, h1, Matrix.det_one]
  rw [← det_eq, ← det_eq] at h3
  change det (smul (det p.rot) (adjugate p.rot)) = det p.rot
  rcases h with h | h <;> rw [h] at h3 ⊢ <;> linarith

/-- The determinant condition is needed: for determinant 2 the "inverse" is none. -/
theorem C34_needs_unimodular : ∃ p : Op Int, det p.rot = 2 ∧ ∃ r, p.inv.applyReal (p.applyReal r) ≠ r :=
  ⟨⟨diag 2 1 1, vec 0 0 0⟩, by decide, vec 1 0 0, by decide⟩

/-- A glide reflection: a non-trivial operation with determinant -1. -/
example : let p : Op Rat := ⟨fun i j => match i, j with | 0, 1 => 1 | 1, 0 => 1 | 2, 2 => 1 | _, _ => 0, vec (1/2) 0 (1/3)⟩
    det p.rot = -1 ∧ p.inv.applyReal (p.applyReal (vec 1 2 3)) = vec 1 2 3 := by
  intro p
  have h : det p.rot = -1 := by decide
  exact ⟨h, (C34_inverse_applies p (Or.inr h) _).1⟩

end Jdftx.M3
