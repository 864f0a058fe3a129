import Verif.Lemmas.YlmLegendre
import Verif.Lemmas.YlmBessel

/-!
# C88: spherical harmonics and spherical Bessel functions

The code writes every real spherical harmonic up to `l = 6`, the table of products of harmonics up to `l = 3`, the gradients and the spherical Bessel
functions with explicit decimal constants. The theorems bound their deviation from the published definition on the whole sphere and the whole axis.
-/
namespace Jdftx.Ylm

/-- Flat index of a pair. -/
theorem index_of (l : Nat) (m : ℤ) (hl : l ≤ 6) (hm : |m| ≤ l) :
    ∃ lm : Nat, lm < 49 ∧ lOf lm = l ∧ mOf lm = m ∧ (lm : ℤ) = (l : ℤ) * ((l : ℤ) + 1) + m ∧ (l ≤ 3 → lm < 16) ∧ ∀ x y z, Y l m x y z = flat lm x y z := by
  have hm' := abs_le.1 hm
  have h0 : 0 ≤ (l : ℤ) * ((l : ℤ) + 1) + m := by nlinarith
  obtain ⟨lm, e⟩ := Int.eq_ofNat_of_zero_le h0
  have f : ∀ x y z, Y l m x y z = flat lm x y z := by
    intro x y z
    unfold Y flatZ
    rw [if_neg (by omega), e]; rfl
  refine ⟨lm, ?_, ?_, ?_, e.symm, ?_, f⟩
  · interval_cases l <;> omega
  · unfold lOf; interval_cases l <;> split_ifs <;> omega
  · have : lOf lm = l := by unfold lOf; interval_cases l <;> split_ifs <;> omega
    unfold mOf; rw [this]; omega
  · intro h3; interval_cases l <;> omega

/-- **C88 (definition).** On the unit sphere every harmonic up to `l = 6` is within 1e-14 of the real spherical harmonic built from Legendre polynomials. -/
theorem C88_definition (l : Nat) (m : ℤ) (hl : l ≤ 6) (hm : |m| ≤ l) (x y z : ℝ) (h : x ^ 2 + y ^ 2 + z ^ 2 = 1) :
    |Y l m x y z - realY l m x y z| ≤ 1 / 10 ^ 14 := by
  obtain ⟨lm, h49, e1, e2, -, -, f⟩ := index_of l m hl hm
  have := def_spec h lm h49
  rw [e1, e2] at this
  rwa [f]

/-- A non-trivial case: the harmonic `l = 2, m = 1` at `(3/5, 0, 4/5)` is not zero. -/
example : Y 2 1 (3 / 5) 0 (4 / 5) ≠ 0 ∧ ((3 / 5 : ℝ)) ^ 2 + 0 ^ 2 + (4 / 5) ^ 2 = 1 := by
  constructor
  · show flatZ 7 _ _ _ ≠ 0
    unfold flatZ
    rw [if_neg (by norm_num)]
    show flat 7 _ _ _ ≠ 0
    unfold flat
    norm_num
  · norm_num

/-- **C88 (scaling).** Each harmonic is a homogeneous polynomial of degree `l`: scaling the vector scales the value by the power `l`. -/
theorem C88_homogeneous (l : Nat) (m : ℤ) (hl : l ≤ 6) (hm : |m| ≤ l) (c x y z : ℝ) : Y l m (c * x) (c * y) (c * z) = c ^ l * Y l m x y z := by
  obtain ⟨lm, h49, e1, -, -, -, f⟩ := index_of l m hl hm
  have ok := harm_all lm h49
  rw [Bool.and_eq_true, e1] at ok
  rw [f, f, flat_eq, flat_eq, eval_homogeneous l _ ok.1]; ring

/-- Hence inversion multiplies the harmonic by `(-1)^l`. -/
theorem C88_parity (l : Nat) (m : ℤ) (hl : l ≤ 6) (hm : |m| ≤ l) (x y z : ℝ) : Y l m (-x) (-y) (-z) = (-1) ^ l * Y l m x y z := by
  have := C88_homogeneous l m hl hm (-1) x y z
  simpa using this

/-- **C88 (Laplace).** Each harmonic satisfies Laplace's equation exactly, at every point of space. -/
theorem C88_laplace (l : Nat) (m : ℤ) (hl : l ≤ 6) (hm : |m| ≤ l) (x y z : ℝ) :
    deriv (deriv fun t => Y l m t y z) x + deriv (deriv fun t => Y l m x t z) y + deriv (deriv fun t => Y l m x y t) z = 0 := by
  obtain ⟨lm, h49, -, -, -, -, f⟩ := index_of l m hl hm
  have ok := harm_all lm h49
  rw [Bool.and_eq_true, beq_iff_eq] at ok
  have hz := eval_zero (x := x) (y := y) (z := z) _ ok.2
  have ex : deriv (deriv fun t => Y l m t y z) x = (ddx (ddx (yPoly lm))).eval x y z / 10 ^ 18 := by
    have : (deriv fun t => Y l m t y z) = fun t => (ddx (yPoly lm)).eval t y z / 10 ^ 18 := by
      funext t
      rw [show (fun t => Y l m t y z) = fun t => (yPoly lm).eval t y z / 10 ^ 18 from funext fun t => by rw [f, flat_eq]]
      exact ((eval_ddx (yPoly lm)).div_const _).deriv
    rw [this]; exact ((eval_ddx _).div_const _).deriv
  have ey : deriv (deriv fun t => Y l m x t z) y = (ddy (ddy (yPoly lm))).eval x y z / 10 ^ 18 := by
    have : (deriv fun t => Y l m x t z) = fun t => (ddy (yPoly lm)).eval x t z / 10 ^ 18 := by
      funext t
      rw [show (fun t => Y l m x t z) = fun t => (yPoly lm).eval x t z / 10 ^ 18 from funext fun t => by rw [f, flat_eq]]
      exact ((eval_ddy (yPoly lm)).div_const _).deriv
    rw [this]; exact ((eval_ddy _).div_const _).deriv
  have ez : deriv (deriv fun t => Y l m x y t) z = (ddz (ddz (yPoly lm))).eval x y z / 10 ^ 18 := by
    have : (deriv fun t => Y l m x y t) = fun t => (ddz (yPoly lm)).eval x y t / 10 ^ 18 := by
      funext t
      rw [show (fun t => Y l m x y t) = fun t => (yPoly lm).eval x y t / 10 ^ 18 from funext fun t => by rw [f, flat_eq]]
      exact ((eval_ddz (yPoly lm)).div_const _).deriv
    rw [this]; exact ((eval_ddz _).div_const _).deriv
  unfold lap at hz
  rw [eval_add, eval_add] at hz
  rw [ex, ey, ez, ← add_div, ← add_div, hz, zero_div]

/-- **C88 (gradient).** At every unit vector the three components of the coded gradient are within 3e-14 of the partial derivatives. -/
theorem C88_gradient (l : Nat) (m : ℤ) (hl : l ≤ 6) (hm : |m| ≤ l) (x y z : ℝ) (h : x ^ 2 + y ^ 2 + z ^ 2 = 1) :
    |(prime l m x y z).1 - deriv (fun t => Y l m t y z) x| ≤ 3 / 10 ^ 14 ∧
    |(prime l m x y z).2.1 - deriv (fun t => Y l m x t z) y| ≤ 3 / 10 ^ 14 ∧
    |(prime l m x y z).2.2 - deriv (fun t => Y l m x y t) z| ≤ 3 / 10 ^ 14 := by
  obtain ⟨lm, h49, e1, e2, -, -, f⟩ := index_of l m hl hm
  have ok := grad_all lm h49
  rw [Bool.and_eq_true, Bool.and_eq_true, e1, e2] at ok
  have dx : deriv (fun t => Y l m t y z) x = (ddx (yPoly lm)).eval x y z / 10 ^ 18 := by
    rw [show (fun t => Y l m t y z) = fun t => (yPoly lm).eval t y z / 10 ^ 18 from funext fun t => by rw [f, flat_eq]]
    exact ((eval_ddx (yPoly lm)).div_const _).deriv
  have dy : deriv (fun t => Y l m x t z) y = (ddy (yPoly lm)).eval x y z / 10 ^ 18 := by
    rw [show (fun t => Y l m x t z) = fun t => (yPoly lm).eval x t z / 10 ^ 18 from funext fun t => by rw [f, flat_eq]]
    exact ((eval_ddy (yPoly lm)).div_const _).deriv
  have dz : deriv (fun t => Y l m x y t) z = (ddz (yPoly lm)).eval x y z / 10 ^ 18 := by
    rw [show (fun t => Y l m x y t) = fun t => (yPoly lm).eval x y t / 10 ^ 18 from funext fun t => by rw [f, flat_eq]]
    exact ((eval_ddz (yPoly lm)).div_const _).deriv
  rw [prime_eq, dx, dy, dz]
  exact ⟨gOk_spec h _ _ ok.1.1, gOk_spec h _ _ ok.1.2, gOk_spec h _ _ ok.2⟩

/-- **C88 (products).** For every two harmonics up to `l = 3` the coded expansion, in either order of the arguments, sums to their product on the whole
unit sphere within 2e-15. -/
theorem C88_product (l1 l2 : Nat) (m1 m2 : ℤ) (h1 : l1 ≤ 3) (h2 : l2 ≤ 3) (hm1 : |m1| ≤ l1) (hm2 : |m2| ≤ l2) (x y z : ℝ) (h : x ^ 2 + y ^ 2 + z ^ 2 = 1) :
    |Y l1 m1 x y z * Y l2 m2 x y z
      - ((expand ((l1 : ℤ) * (l1 + 1) + m1).toNat ((l2 : ℤ) * (l2 + 1) + m2).toNat).map fun t => (t.coeff : ℝ) * Y t.l t.m x y z).sum| ≤ 2 / 10 ^ 15 := by
  obtain ⟨a, -, -, -, ea, la, fa⟩ := index_of l1 m1 (by omega) hm1
  obtain ⟨b, -, -, -, eb, lb, fb⟩ := index_of l2 m2 (by omega) hm2
  rw [fa, fb, ← ea, ← eb, Int.toNat_natCast, Int.toNat_natCast]
  exact prod_spec h a b (la h1) (lb h2)

/-- The selection rules hold for every listed term. -/
def selected (l1 l2 : Nat) (t : Term) : Bool :=
  decide (|t.m| ≤ t.l ∧ |(l1 : ℤ) - l2| ≤ t.l ∧ t.l ≤ l1 + l2 ∧ (t.l + l1 + l2) % 2 = 0)

theorem sel_all : ∀ a < 16, ∀ b < 16, (expand a b).all (selected (lOf a) (lOf b)) = true := by decide +kernel

/-- **C88 (selection rules).** Every term of an expansion is a harmonic `|m| ≤ l` allowed by the triangle rule and parity. -/
theorem C88_selection (l1 l2 : Nat) (m1 m2 : ℤ) (h1 : l1 ≤ 3) (h2 : l2 ≤ 3) (hm1 : |m1| ≤ l1) (hm2 : |m2| ≤ l2) (t : Term)
    (ht : t ∈ expand ((l1 : ℤ) * (l1 + 1) + m1).toNat ((l2 : ℤ) * (l2 + 1) + m2).toNat) :
    |t.m| ≤ t.l ∧ |(l1 : ℤ) - l2| ≤ t.l ∧ t.l ≤ l1 + l2 ∧ (t.l + l1 + l2) % 2 = 0 := by
  obtain ⟨a, -, oa, -, ea, la, -⟩ := index_of l1 m1 (by omega) hm1
  obtain ⟨b, -, ob, -, eb, lb, -⟩ := index_of l2 m2 (by omega) hm2
  rw [← ea, ← eb, Int.toNat_natCast, Int.toNat_natCast] at ht
  have := List.all_eq_true.1 (sel_all a (la h1) b (lb h2)) t ht
  rw [oa, ob] at this
  unfold selected at this
  exact of_decide_eq_true this

/-- The expansion of a product of two f harmonics has several terms. -/
example : (expand 12 12).length = 4 := by decide +kernel

/-- **C88 (Bessel functions).** For every non-zero argument and `l ≤ 6`, the coded function deviates from the spherical Bessel function by at most 4e-15
of the leading power `x^l / (2l+1)!!`; beyond `1 + l/10` it is equal to it. -/
theorem C88_bessel (l : Nat) (hl : l ≤ 6) (x : ℝ) (h0 : x ≠ 0) :
    |bessel l x - sphericalBessel l x| ≤ 4 / 10 ^ 15 * (|x| ^ l / oddFactorial l) ∧ (|x| > 1 + 0.1 * (l : ℝ) → bessel l x = sphericalBessel l x) := by
  refine ⟨?_, closed_form l x h0 hl⟩
  by_cases hx : |x| > 1 + 0.1 * (l : ℝ)
  · rw [closed_form l x h0 hl hx, sub_self, abs_zero]
    have := oddFactorial_pos l
    positivity
  · have e : bessel l x = seriesLoop l x (leading l x) := by unfold bessel; rw [if_neg hx]
    rw [e]
    exact series_err l x h0 hl (not_lt.1 hx)

/-- **C88 (Bessel functions at zero).** At zero the value is one for `l = 0` and zero otherwise, the limit of the function. -/
theorem C88_bessel_zero (l : Nat) : bessel l 0 = if l = 0 then 1 else 0 := by
  have e : bessel l 0 = seriesLoop l 0 (leading l 0) := by
    unfold bessel; rw [if_neg (by rw [abs_zero]; push Not; positivity)]
  rw [e, seriesLoop_eq]
  rcases Nat.eq_zero_or_pos l with rfl | hl
  · simp [Finset.sum_range_succ, aT, oddFactorial]
  · rw [if_neg (by omega)]
    simp [show l ≠ 0 by omega]

end Jdftx.Ylm
