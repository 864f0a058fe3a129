import Verif.Spec.Ylm
import Verif.Lemmas.YlmCheck
import Mathlib.Analysis.Real.Pi.Bounds

/-!
# The harmonics against their published definition
-/
namespace Jdftx.Ylm
open Polynomial

/-! ### Legendre polynomials by coefficients -/

abbrev Coeffs := List ℚ

noncomputable def toPoly : Coeffs → ℝ[X]
  | [] => 0
  | a :: p => C (a : ℝ) + X * toPoly p

def cadd : Coeffs → Coeffs → Coeffs
  | [], q => q
  | p, [] => p
  | a :: p, b :: q => (a + b) :: cadd p q
def cscale (c : ℚ) (p : Coeffs) : Coeffs := p.map (c * ·)
/-- Derivative of `X * p`, that is `p + X p'`. -/
def cderX : Coeffs → Nat → Coeffs
  | [], _ => []
  | a :: p, n => ((n : ℚ) + 1) * a :: cderX p (n + 1)
def cder : Coeffs → Coeffs
  | [] => []
  | _ :: p => cderX p 0

theorem toPoly_add (p q : Coeffs) : toPoly (cadd p q) = toPoly p + toPoly q := by
  induction p generalizing q with
  | nil => simp [cadd, toPoly]
  | cons a p ih =>
    cases q with
    | nil => simp [cadd, toPoly]
    | cons b q => simp only [cadd, toPoly, ih]; push_cast; rw [map_add]; ring

theorem toPoly_scale (c : ℚ) (p : Coeffs) : toPoly (cscale c p) = C (c : ℝ) * toPoly p := by
  induction p with
  | nil => simp [cscale, toPoly]
  | cons a p ih =>
    have : toPoly (cscale c (a :: p)) = C ((c * a : ℚ) : ℝ) + X * toPoly (cscale c p) := rfl
    rw [this, ih, toPoly]; push_cast; rw [map_mul]; ring

theorem toPoly_derX (p : Coeffs) (n : Nat) : toPoly (cderX p n) = C ((n : ℝ) + 1) * toPoly p + X * derivative (toPoly p) := by
  induction p generalizing n with
  | nil => simp [cderX, toPoly]
  | cons a p ih =>
    simp only [cderX, toPoly, ih, derivative_add, derivative_C, derivative_mul, derivative_X]
    push_cast
    simp only [map_add, map_mul, map_one]
    ring

theorem toPoly_der (p : Coeffs) : toPoly (cder p) = derivative (toPoly p) := by
  cases p with
  | nil => simp [cder, toPoly]
  | cons a p => simp only [cder, toPoly, toPoly_derX, derivative_add, derivative_C, derivative_mul, derivative_X]; simp

def cder_iter : Nat → Coeffs → Coeffs
  | 0, p => p
  | k + 1, p => cder_iter k (cder p)

theorem toPoly_iter (k : Nat) (p : Coeffs) : toPoly (cder_iter k p) = derivative^[k] (toPoly p) := by
  induction k generalizing p with
  | zero => rfl
  | succ k ih => rw [cder_iter, ih, toPoly_der]; rfl

def legQ : Nat → Coeffs
  | 0 => [1]
  | 1 => [0, 1]
  | l + 2 => cadd (0 :: cscale ((2 * (l : ℚ) + 3) / ((l : ℚ) + 2)) (legQ (l + 1))) (cscale (-(((l : ℚ) + 1) / ((l : ℚ) + 2))) (legQ l))

theorem toPoly_leg : ∀ l : Nat, toPoly (legQ l) = legendre l
  | 0 => by simp [legQ, legendre, toPoly]
  | 1 => by simp [legQ, legendre, toPoly]
  | l + 2 => by
    rw [legQ, legendre, toPoly_add, toPoly, toPoly_scale, toPoly_scale, toPoly_leg (l + 1), toPoly_leg l]
    push_cast
    rw [map_neg, map_zero]; ring

/-! ### As homogeneous polynomials in three variables -/

/-- `16 Σ a_j z^j`, each term made homogeneous of degree `d` with powers of `x² + y² + z²`; `j` counts from `j0`. -/
def homog (d : Nat) : Coeffs → Nat → Poly
  | [], _ => []
  | a :: p, j => add (scale (16 * a).num (rrPow ((d - j) / 2) [(1, 0, 0, j)])) (homog d p (j + 1))

def coeffsOk (p : Coeffs) : Bool := p.all fun a => (16 * a).den == 1

variable {x y z : ℝ}

theorem homog_eval (h : x ^ 2 + y ^ 2 + z ^ 2 = 1) (d : Nat) (p : Coeffs) (ok : coeffsOk p = true) (j : Nat) :
    (homog d p j).eval x y z = 16 * z ^ j * (toPoly p).eval z := by
  induction p generalizing j with
  | nil => simp [homog, toPoly]
  | cons a p ih =>
    simp only [coeffsOk, List.all_cons, Bool.and_eq_true, beq_iff_eq] at ok
    have e : (((16 * a).num : ℤ) : ℝ) = 16 * (a : ℝ) := by
      have : (((16 * a).num : ℤ) : ℚ) = 16 * a := (Rat.den_eq_one_iff _).1 ok.1
      exact_mod_cast congrArg (fun q : ℚ => (q : ℝ)) this
    rw [homog, eval_add, eval_scale, eval_rrPow h, ih ok.2, toPoly, e]
    simp [Mono.eval]
    ring

/-- Real and imaginary part of `(x + i y)^k`. -/
def cpow : Nat → Poly × Poly
  | 0 => ([(1, 0, 0, 0)], [])
  | k + 1 => let p := cpow k
    (add (mulT (1, 1, 0, 0) p.1) (scale (-1) (mulT (1, 0, 1, 0) p.2)), add (mulT (1, 1, 0, 0) p.2) (mulT (1, 0, 1, 0) p.1))

theorem cpow_eval (k : Nat) : (cpow k).1.eval x y z = ((⟨x, y⟩ : ℂ) ^ k).re ∧ (cpow k).2.eval x y z = ((⟨x, y⟩ : ℂ) ^ k).im := by
  induction k with
  | zero => simp [cpow, Mono.eval]
  | succ k ih =>
    rw [pow_succ, Complex.mul_re, Complex.mul_im, ← ih.1, ← ih.2]
    simp only [cpow, eval_add, eval_scale, eval_mulT, Mono.eval]
    push_cast
    constructor <;> ring

/-! ### The prefactor -/

/-- The prefactor is `sqrt (c / pi)`. -/
def cFac (l : Nat) (m : ℤ) : ℚ :=
  if m = 0 then (2 * (l : ℚ) + 1) / 4 else (2 * (l : ℚ) + 1) / 2 * ((l - m.natAbs).factorial / (l + m.natAbs).factorial)

/-- Square root of `c / pi` in units of 1e-20. -/
def sqPi (c : ℚ) : Nat := isq (c * 10 ^ 40 / 3.14159265358979323847).floor.toNat

def sqPiOk (c : ℚ) : Bool :=
  decide ((sqPi c : ℚ) ^ 2 * 3.14159265358979323847 ≤ c * 10 ^ 40 ∧ c * 10 ^ 40 ≤ ((sqPi c : ℚ) + 2) ^ 2 * 3.14159265358979323846)

theorem sqPi_spec (c : ℚ) (h : sqPiOk c = true) : |Real.sqrt ((c : ℝ) / Real.pi) - (sqPi c : ℝ) / 10 ^ 20| ≤ 2 / 10 ^ 20 := by
  unfold sqPiOk at h
  rw [decide_eq_true_eq] at h
  obtain ⟨h1, h2⟩ := h
  have h1' : ((sqPi c : ℝ)) ^ 2 * 3.14159265358979323847 ≤ (c : ℝ) * 10 ^ 40 := by
    have := (Rat.cast_le (K := ℝ)).2 h1; push_cast at this; linarith
  have h2' : (c : ℝ) * 10 ^ 40 ≤ ((sqPi c : ℝ) + 2) ^ 2 * 3.14159265358979323846 := by
    have := (Rat.cast_le (K := ℝ)).2 h2; push_cast at this; linarith
  have hr : (0 : ℝ) ≤ (sqPi c : ℝ) := Nat.cast_nonneg _
  have p1 := Real.pi_gt_d20
  have p2 := Real.pi_lt_d20
  have pp := Real.pi_pos
  generalize (sqPi c : ℝ) = r at *
  have a : r / 10 ^ 20 ≤ Real.sqrt ((c : ℝ) / Real.pi) := by
    apply Real.le_sqrt_of_sq_le
    rw [div_pow, div_le_div_iff₀ (by positivity) pp]
    calc r ^ 2 * Real.pi ≤ r ^ 2 * 3.14159265358979323847 := by gcongr
      _ ≤ (c : ℝ) * 10 ^ 40 := h1'
      _ = _ := by norm_num
  have b : Real.sqrt ((c : ℝ) / Real.pi) ≤ (r + 2) / 10 ^ 20 := by
    apply Real.sqrt_le_iff.2
    refine ⟨by positivity, ?_⟩
    rw [div_pow, div_le_div_iff₀ pp (by positivity)]
    calc _ = (c : ℝ) * 10 ^ 40 := by norm_num
      _ ≤ (r + 2) ^ 2 * 3.14159265358979323846 := h2'
      _ ≤ _ := by gcongr
  rw [abs_le]
  constructor
  · have : (0 : ℝ) ≤ 2 / 10 ^ 20 := by positivity
    linarith
  · rw [add_div] at b; linarith

/-- Sixteen times the harmonic without its prefactor. -/
def angPoly (l : Nat) (m : ℤ) : Poly :=
  mul (homog (l - m.natAbs) (cder_iter m.natAbs (legQ l)) 0) (if m < 0 then (cpow m.natAbs).2 else (cpow m.natAbs).1)

theorem realY_eq (h : x ^ 2 + y ^ 2 + z ^ 2 = 1) (l : Nat) (m : ℤ) (ok : coeffsOk (cder_iter m.natAbs (legQ l)) = true) :
    realY l m x y z = Real.sqrt ((cFac l m : ℝ) / Real.pi) * (angPoly l m).eval x y z / 16 := by
  have e : (homog (l - m.natAbs) (cder_iter m.natAbs (legQ l)) 0).eval x y z = 16 * (derivative^[m.natAbs] (legendre l)).eval z := by
    rw [homog_eval h _ _ ok, toPoly_iter, toPoly_leg]; ring
  obtain ⟨c1, c2⟩ := cpow_eval (x := x) (y := y) (z := z) m.natAbs
  unfold realY angPoly
  rw [eval_mul, e]
  rcases lt_trichotomy m 0 with hm | hm | hm
  · simp only [hm, hm.ne, if_false, if_true, c2, cFac, show ¬ (m > 0) by omega]
    rw [show (((2 * (l : ℚ) + 1) / 2 * ((l - m.natAbs).factorial / (l + m.natAbs).factorial) : ℚ) : ℝ) / Real.pi
      = (2 * (l : ℝ) + 1) / (2 * Real.pi) * ((l - m.natAbs).factorial / (l + m.natAbs).factorial) by push_cast; field_simp]
    ring
  · subst hm
    simp only [if_true, cFac, lt_irrefl, if_false, c1]
    rw [show (((2 * (l : ℚ) + 1) / 4 : ℚ) : ℝ) / Real.pi = (2 * (l : ℝ) + 1) / (4 * Real.pi) by push_cast; field_simp]
    simp; ring
  · simp only [hm, hm.ne', if_false, if_true, c1, cFac, show ¬ (m < 0) by omega]
    rw [show (((2 * (l : ℚ) + 1) / 2 * ((l - m.natAbs).factorial / (l + m.natAbs).factorial) : ℚ) : ℝ) / Real.pi
      = (2 * (l : ℝ) + 1) / (2 * Real.pi) * ((l - m.natAbs).factorial / (l + m.natAbs).factorial) by push_cast; field_simp]
    ring

def defOk (lm : Nat) : Bool :=
  let l := lOf lm
  let m := mOf lm
  coeffsOk (cder_iter m.natAbs (legQ l)) && sqPiOk (cFac l m) &&
  decide (size (add (scale 1600 (yPoly lm)) (scale (-(sqPi (cFac l m) : ℤ)) (angPoly l m))) + 2 * size (angPoly l m) ≤ 16 * 10 ^ 6)

set_option maxRecDepth 20000 in
theorem def_all : ∀ lm < 49, defOk lm = true := by decide +kernel

theorem def_spec (h : x ^ 2 + y ^ 2 + z ^ 2 = 1) (lm : Nat) (hl : lm < 49) : |flat lm x y z - realY (lOf lm) (mOf lm) x y z| ≤ 1 / 10 ^ 14 := by
  have ok := def_all lm hl
  unfold defOk at ok
  simp only [Bool.and_eq_true, decide_eq_true_eq] at ok
  obtain ⟨⟨o1, o2⟩, o3⟩ := ok
  rw [realY_eq h _ _ o1, flat_eq]
  have e := sqPi_spec _ o2
  have b := eval_le h (angPoly (lOf lm) (mOf lm))
  have b2 := eval_le h (add (scale 1600 (yPoly lm)) (scale (-(sqPi (cFac (lOf lm) (mOf lm)) : ℤ)) (angPoly (lOf lm) (mOf lm))))
  have c : ((size (add (scale 1600 (yPoly lm)) (scale (-(sqPi (cFac (lOf lm) (mOf lm)) : ℤ)) (angPoly (lOf lm) (mOf lm)))) : Nat) : ℝ)
      + 2 * ((size (angPoly (lOf lm) (mOf lm)) : Nat) : ℝ) ≤ 16 * 10 ^ 6 := by exact_mod_cast o3
  rw [eval_add, eval_scale, eval_scale] at b2
  generalize ((size (add (scale 1600 (yPoly lm)) (scale (-(sqPi (cFac (lOf lm) (mOf lm)) : ℤ)) (angPoly (lOf lm) (mOf lm)))) : Nat) : ℝ) = n at *
  push_cast at b2
  generalize ((size (angPoly (lOf lm) (mOf lm)) : Nat) : ℝ) = k at *
  generalize (angPoly (lOf lm) (mOf lm)).eval x y z = q at *
  generalize (sqPi (cFac (lOf lm) (mOf lm)) : ℝ) = r at *
  generalize Real.sqrt ((cFac (lOf lm) (mOf lm) : ℝ) / Real.pi) = s at *
  generalize (yPoly lm).eval x y z = p at *
  have : p / 10 ^ 18 - s * q / 16 = (1600 * p + -r * q) / (16 * 10 ^ 20) - (s - r / 10 ^ 20) * q / 16 := by ring
  rw [this]
  refine (abs_sub _ _).trans ?_
  rw [abs_div, abs_div, abs_mul (s - r / 10 ^ 20), abs_of_pos (show (0 : ℝ) < 16 * 10 ^ 20 by norm_num), abs_of_pos (show (0 : ℝ) < 16 by norm_num)]
  calc _ ≤ n / (16 * 10 ^ 20) + (2 / 10 ^ 20) * k / 16 := by gcongr
    _ = (n + 2 * k) / (16 * 10 ^ 20) := by ring
    _ ≤ 16 * 10 ^ 6 / (16 * 10 ^ 20) := by gcongr
    _ = _ := by norm_num

end Jdftx.Ylm
