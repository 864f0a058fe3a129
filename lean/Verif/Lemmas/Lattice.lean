import Verif.Model.Lattice
import Verif.Spec.Lattice
import Verif.Lemmas.Mat3
import Mathlib.Tactic.Linarith
import Mathlib.Tactic.Positivity

namespace Jdftx.Lat
open Jdftx.M3

variable {K : Type} [CommRing K]

theorem nrm2sq_eq (m : Mat K) : nrm2sq m = sumSq m := by
  simp only [nrm2sq, trace, mulMM, transpose, sumSq, Fin.sum_univ_three]; ring

theorem nrm2_nonneg (φ : K →+* ℝ) (m : Mat K) : 0 ≤ nrm2 φ m := Real.sqrt_nonneg _

theorem nrm2_eq (φ : K →+* ℝ) (m : Mat K) : nrm2 φ m = Real.sqrt (∑ a, ∑ b, φ (m a b) ^ 2) := by
  unfold nrm2; rw [nrm2sq_eq]; simp only [sumSq, map_sum, map_pow]

theorem mul_elem (R : Mat K) (k : Fin 3) (i j : Int) : mulMM R (castMat (elem k i j)) = addCols R k i j := by
  funext a b
  fin_cases k <;> fin_cases b <;> simp [mulMM, castMat, elem, addCols, diag, vec] <;> ring

theorem elem_mul (k : Fin 3) (i j : Int) :
    Matrix.of (elem k i j) * Matrix.of (elem k (-i) (-j)) = 1 := by
  rw [← mulMM_eq, ← diag_one]
  ext a b
  fin_cases k <;> fin_cases a <;> fin_cases b <;> simp [mulMM, elem, diag, vec]

theorem elem_det (k : Fin 3) (i j : Int) : (Matrix.of (elem k i j)).det = 1 := by
  rw [← det_eq]
  fin_cases k <;> simp [det, box, dot, cross, row, vec, elem, diag]

/-- What holds after every trial. -/
structure Inv (R0 : Mat K) (s : RState K) : Prop where
  prod : Matrix.of s.R = Matrix.of R0 * Matrix.of (castMat s.t)
  inv : Matrix.of s.t * Matrix.of s.tInv = 1
  det : (Matrix.of s.t).det = 1

theorem inv_init (R0 : Mat K) : Inv R0 ⟨R0, diag 1 1 1, diag 1 1 1⟩ := by
  refine ⟨?_, ?_, ?_⟩
  · rw [castMat_eq, diag_one]; simp
  · rw [diag_one]; simp
  · rw [diag_one]; simp

theorem trial_inv (φ : K →+* ℝ) (thr : ℝ) (R0 : Mat K) (s : RState K) (k : Fin 3) (i j : Int) (h : Inv R0 s) :
    Inv R0 (trial φ thr s k i j).1 := by
  unfold trial
  simp only
  split
  · refine ⟨?_, ?_, ?_⟩
    · simp only
      rw [mulMM_eq, h.prod, castMat_eq, castMat_eq, castMat_eq, mulMM_eq, Matrix.map_mul, mul_assoc]
    · simp only
      rw [mulMM_eq, mulMM_eq, mul_assoc, ← mul_assoc (Matrix.of (elem k i j)), elem_mul, one_mul, h.inv]
    · simp only
      rw [mulMM_eq, Matrix.det_mul, h.det, elem_det, mul_one]
  · exact h

theorem trial_norm (φ : K →+* ℝ) (thr : ℝ) (s : RState K) (k : Fin 3) (i j : Int) :
    nrm2 φ (trial φ thr s k i j).1.R ≤ nrm2 φ s.R - (if (trial φ thr s k i j).2 then thr else 0) := by
  unfold trial
  simp only
  split
  · next h => simp only [if_true]; exact h.le
  · simp

theorem sweep_inv (φ : K →+* ℝ) (thr : ℝ) (R0 : Mat K) (ps) : ∀ s : RState K, Inv R0 s → Inv R0 (sweep φ thr ps s).1 := by
  induction ps with
  | nil => intro s h; exact h
  | cons p ps ih => intro s h; exact ih _ (trial_inv φ thr R0 s _ _ _ h)

theorem sweep_norm (φ : K →+* ℝ) (thr : ℝ) (hthr : 0 ≤ thr) (ps) : ∀ s : RState K,
    nrm2 φ (sweep φ thr ps s).1.R ≤ nrm2 φ s.R - (if (sweep φ thr ps s).2 then thr else 0) := by
  induction ps with
  | nil => intro s; simp [sweep]
  | cons p ps ih =>
    intro s
    have h1 := trial_norm φ thr s p.1 p.2.1 p.2.2
    have h2 := ih (trial φ thr s p.1 p.2.1 p.2.2).1
    have e1 : (sweep φ thr (p :: ps) s).1 = (sweep φ thr ps (trial φ thr s p.1 p.2.1 p.2.2).1).1 := rfl
    have e2 : (sweep φ thr (p :: ps) s).2
      = ((trial φ thr s p.1 p.2.1 p.2.2).2 || (sweep φ thr ps (trial φ thr s p.1 p.2.1 p.2.2).1).2) := rfl
    rw [e1, e2]
    cases hc1 : (trial φ thr s p.1 p.2.1 p.2.2).2 <;>
      cases hc2 : (sweep φ thr ps (trial φ thr s p.1 p.2.1 p.2.2).1).2 <;>
      rw [hc1] at h1 <;> rw [hc2] at h2 <;> simp at h1 h2 ⊢ <;> linarith

theorem sweep_unchanged (φ : K →+* ℝ) (thr : ℝ) (ps) : ∀ s : RState K, (sweep φ thr ps s).2 = false →
    (sweep φ thr ps s).1 = s ∧ ∀ p ∈ ps, nrm2 φ s.R - thr ≤ nrm2 φ (addCols s.R p.1 p.2.1 p.2.2) := by
  induction ps with
  | nil => intro s _; exact ⟨rfl, fun p hp => by simp at hp⟩
  | cons p ps ih =>
    intro s h
    have e2 : (sweep φ thr (p :: ps) s).2
      = ((trial φ thr s p.1 p.2.1 p.2.2).2 || (sweep φ thr ps (trial φ thr s p.1 p.2.1 p.2.2).1).2) := rfl
    rw [e2, Bool.or_eq_false_iff] at h
    have ht : (trial φ thr s p.1 p.2.1 p.2.2).1 = s ∧
        ¬ (nrm2 φ (mulMM s.R (castMat (elem p.1 p.2.1 p.2.2))) < nrm2 φ s.R - thr) := by
      have h1 := h.1
      unfold trial at h1 ⊢
      simp only at h1 ⊢
      split at h1
      · simp at h1
      · next hn => rw [if_neg hn]; exact ⟨rfl, hn⟩
    have h2 := h.2
    rw [ht.1] at h2
    obtain ⟨i1, i2⟩ := ih s h2
    refine ⟨?_, ?_⟩
    · show (sweep φ thr ps (trial φ thr s p.1 p.2.1 p.2.2).1).1 = s
      rw [ht.1, i1]
    · intro q hq
      rcases List.mem_cons.1 hq with rfl | hq
      · rw [← mul_elem]; exact not_lt.1 ht.2
      · exact i2 q hq

theorem mem_trials (k : Fin 3) (i j : Int) (hi : -1 ≤ i ∧ i ≤ 1) (hj : -1 ≤ j ∧ j ≤ 1) : (k, i, j) ∈ trials := by
  have hi' : i = -1 ∨ i = 0 ∨ i = 1 := by omega
  have hj' : j = -1 ∨ j = 0 ∨ j = 1 := by omega
  rcases hi' with rfl | rfl | rfl <;> rcases hj' with rfl | rfl | rfl <;> revert k <;> decide

/-- What holds at the end. -/
structure Done (φ : K →+* ℝ) (thr : ℝ) (s : RState K) : Prop where
  reduced : ∀ (k : Fin 3) (i j : Int), -1 ≤ i ∧ i ≤ 1 → -1 ≤ j ∧ j ≤ 1 →
    nrm2 φ s.R - thr ≤ nrm2 φ (addCols s.R k i j)

theorem reduceLoop_spec (φ : K →+* ℝ) (thr : ℝ) (hthr : 0 < thr) (R0 : Mat K) : ∀ (fuel : Nat) (s : RState K),
    Inv R0 s → nrm2 φ s.R < fuel * thr →
    ∃ s', reduceLoop φ thr fuel s = .ok s' ∧ Inv R0 s' ∧ Done φ thr s' ∧ nrm2 φ s'.R ≤ nrm2 φ s.R := by
  intro fuel
  induction fuel with
  | zero => intro s _ h; have := nrm2_nonneg φ s.R; simp at h; linarith
  | succ n ih =>
    intro s hs hn
    have h1 := sweep_inv φ thr R0 trials s hs
    have h2 := sweep_norm φ thr hthr.le trials s
    unfold reduceLoop
    simp only
    cases hc : (sweep φ thr trials s).2 with
    | true =>
      rw [hc] at h2
      simp only [if_true] at h2 ⊢
      push_cast at hn
      obtain ⟨s', e, i1, i2, i3⟩ := ih _ h1 (by linarith)
      exact ⟨s', e, i1, i2, by linarith⟩
    | false =>
      obtain ⟨u1, u2⟩ := sweep_unchanged φ thr trials s hc
      refine ⟨s, by simp [u1], hs, ⟨fun k i j hi hj => ?_⟩, le_rfl⟩
      exact u2 (k, i, j) (mem_trials k i j hi hj)

end Jdftx.Lat
