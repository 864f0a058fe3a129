import Verif.Spec.RadialWeights
import Mathlib.MeasureTheory.Integral.IntervalIntegral.FundThmCalculus
import Mathlib.Analysis.Calculus.Deriv.Pow
import Mathlib.Analysis.Calculus.Deriv.Polynomial
import Mathlib.Algebra.BigOperators.Ring.Finset
import Mathlib.Tactic.Ring
import Mathlib.Tactic.Linarith
import Mathlib.Tactic.FieldSimp
import Mathlib.Tactic.NormNum
import Mathlib.Tactic.LinearCombination
/-! # Lemmas on radial weights -/
namespace Jdftx.RadW
open MeasureTheory

theorem asm_a (r y : ℕ → ℝ) (m k : ℕ) : (assemble r y m).a k = if 0 < k ∧ k ≤ m then hInv r (k - 1) else 0 := by
  induction m with
  | zero => rw [if_neg (by omega)]; rfl
  | succ m ih =>
    simp only [assemble, interval, addAt, ih]
    by_cases h : k = m + 1
    · subst h; simp
    · rw [if_neg h]; congr 1; simp only [eq_iff_iff]; omega

theorem asm_c (r y : ℕ → ℝ) (m k : ℕ) : (assemble r y m).c k = if k < m then hInv r k else 0 := by
  induction m with
  | zero => rw [if_neg (by omega)]; rfl
  | succ m ih =>
    simp only [assemble, interval, addAt, ih]
    by_cases h : k = m
    · subst h; simp
    · rw [if_neg h]; congr 1; simp only [eq_iff_iff]; omega

theorem asm_b (r y : ℕ → ℝ) (m k : ℕ) : (assemble r y m).b k =
    (if k < m then 2 * hInv r k else 0) + (if 0 < k ∧ k ≤ m then 2 * hInv r (k - 1) else 0) := by
  induction m with
  | zero => rw [if_neg (by omega), if_neg (by omega)]; simp [assemble]
  | succ m ih =>
    simp only [assemble, interval, addAt, ih]
    by_cases h : k = m + 1
    · subst h; simp
    · rw [if_neg h]
      by_cases h' : k = m
      · subst h'
        by_cases h0 : 0 < k
        · simp [h0]; ring
        · simp [h0]
      · rw [if_neg h']; congr 2 <;> (simp only [eq_iff_iff]; omega)

theorem asm_d (r y : ℕ → ℝ) (m k : ℕ) : (assemble r y m).d k =
    (if k < m then rhs r y k else 0) + (if 0 < k ∧ k ≤ m then rhs r y (k - 1) else 0) := by
  induction m with
  | zero => rw [if_neg (by omega), if_neg (by omega)]; simp [assemble]
  | succ m ih =>
    simp only [assemble, interval, addAt, ih]
    by_cases h : k = m + 1
    · subst h; simp
    · rw [if_neg h]
      by_cases h' : k = m
      · subst h'
        by_cases h0 : 0 < k
        · simp [h0]; ring
        · simp [h0]
      · rw [if_neg h']; congr 2 <;> (simp only [eq_iff_iff]; omega)

theorem hInv_pos (r : ℕ → ℝ) (m : ℕ) (h : ∀ i < m, r i < r (i + 1)) (i : ℕ) (hi : i < m) : 0 < hInv r i :=
  one_div_pos.mpr (sub_pos.mpr (h i hi))

/-- Pivots stay positive. -/
theorem pivot (r y : ℕ → ℝ) (m : ℕ) (h : ∀ i < m, r i < r (i + 1)) (hm : 0 < m) (i : ℕ) (hi : i ≤ m) :
    0 < (eliminate (assemble r y m) i).1 ∧ (i < m → 2 * hInv r i ≤ (eliminate (assemble r y m) i).1) := by
  induction i with
  | zero =>
    have := hInv_pos r m h 0 hm
    simp only [eliminate, asm_b, if_pos hm]
    simp
    exact this
  | succ i ih =>
    obtain ⟨h1, h2⟩ := ih (by omega)
    have h2 := h2 (by omega)
    have h3 := hInv_pos r m h i (by omega)
    have hq : hInv r i / (eliminate (assemble r y m) i).1 * hInv r i ≤ 1 / 2 * hInv r i := by
      apply mul_le_mul_of_nonneg_right _ h3.le
      rw [div_le_div_iff₀ h1 (by norm_num)]
      linarith
    have e : (eliminate (assemble r y m) (i + 1)).1 = (if i + 1 < m then 2 * hInv r (i + 1) else 0) + 2 * hInv r i -
        hInv r i / (eliminate (assemble r y m) i).1 * hInv r i := by
      conv_lhs => unfold eliminate
      simp only [asm_a, asm_b, asm_c]
      rw [if_pos (show 0 < i + 1 ∧ i + 1 ≤ m by omega), if_pos (show 0 < i + 1 ∧ i + 1 ≤ m by omega), if_pos (show i < m by omega)]
      simp
    rw [e]
    by_cases hl : i + 1 < m
    · have h4 := hInv_pos r m h (i + 1) hl
      rw [if_pos hl]
      exact ⟨by linarith, fun _ => by linarith⟩
    · rw [if_neg hl]
      exact ⟨by linarith, fun h => absurd h hl⟩

/-- The spline equations in rows `0 … m`. -/
def Eqs (r y z : ℕ → ℝ) (m : ℕ) : Prop :=
  (2 * z 0 + z 1) * hInv r 0 = rhs r y 0 ∧
  (∀ i, i + 1 < m → (z i + 2 * z (i + 1)) * hInv r i + (2 * z (i + 1) + z (i + 2)) * hInv r (i + 1) = rhs r y i + rhs r y (i + 1)) ∧
  (z (m - 1) + 2 * z m) * hInv r (m - 1) = rhs r y (m - 1)

/-- Rows after elimination. -/
def Rows (r y z : ℕ → ℝ) (m : ℕ) : Prop :=
  ∀ i ≤ m, (eliminate (assemble r y m) i).1 * z i + (if i < m then hInv r i * z (i + 1) else 0) = (eliminate (assemble r y m) i).2

theorem elim_succ (r y : ℕ → ℝ) (m i : ℕ) (hi : i < m) :
    (eliminate (assemble r y m) (i + 1)).1 = (if i + 1 < m then 2 * hInv r (i + 1) else 0) + 2 * hInv r i -
        hInv r i / (eliminate (assemble r y m) i).1 * hInv r i ∧
    (eliminate (assemble r y m) (i + 1)).2 = (if i + 1 < m then rhs r y (i + 1) else 0) + rhs r y i -
        hInv r i / (eliminate (assemble r y m) i).1 * (eliminate (assemble r y m) i).2 := by
  constructor
  all_goals
    conv_lhs => unfold eliminate
    simp only [asm_a, asm_b, asm_c, asm_d]
    rw [if_pos (show 0 < i + 1 ∧ i + 1 ≤ m by omega), if_pos (show 0 < i + 1 ∧ i + 1 ≤ m by omega)]
    simp [hi]

/-- The rows are equivalent to the equations. -/
theorem rows_iff (r y z : ℕ → ℝ) (m : ℕ) (h : ∀ i < m, r i < r (i + 1)) (hm : 0 < m) : Eqs r y z m ↔ Rows r y z m := by
  have e0 : (eliminate (assemble r y m) 0).1 = 2 * hInv r 0 ∧ (eliminate (assemble r y m) 0).2 = rhs r y 0 := by
    simp [eliminate, asm_b, asm_d, hm]
  constructor
  · rintro ⟨h1, h2, h3⟩ i hi
    induction i with
    | zero => rw [if_pos hm, e0.1, e0.2, ← h1]; ring
    | succ i ih =>
      have ih := ih (by omega)
      have hp := (pivot r y m h hm i (by omega)).1.ne'
      obtain ⟨e1, e2⟩ := elim_succ r y m i (by omega)
      rw [if_pos (show i < m by omega)] at ih
      rw [e1, e2]
      have hq : hInv r i / (eliminate (assemble r y m) i).1 * (eliminate (assemble r y m) i).2 =
          hInv r i * z i + hInv r i / (eliminate (assemble r y m) i).1 * (hInv r i * z (i + 1)) := by
        rw [← ih]; field_simp
      rw [hq]
      by_cases hl : i + 1 < m
      · simp only [if_pos hl]
        linear_combination h2 i hl
      · simp only [if_neg hl]
        have : m = i + 1 := by omega
        subst this
        simp only [Nat.add_sub_cancel] at h3
        linear_combination h3
  · intro hr
    have key : ∀ i < m, (z i + 2 * z (i + 1)) * hInv r i + (if i + 1 < m then (2 * z (i + 1) + z (i + 2)) * hInv r (i + 1) else 0) =
        rhs r y i + if i + 1 < m then rhs r y (i + 1) else 0 := by
      intro i hi
      have ih := hr i (by omega)
      have hn := hr (i + 1) (by omega)
      have hp := (pivot r y m h hm i (by omega)).1.ne'
      obtain ⟨e1, e2⟩ := elim_succ r y m i hi
      rw [if_pos hi] at ih
      have hq : hInv r i / (eliminate (assemble r y m) i).1 * (eliminate (assemble r y m) i).2 =
          hInv r i * z i + hInv r i / (eliminate (assemble r y m) i).1 * (hInv r i * z (i + 1)) := by
        rw [← ih]; field_simp
      rw [e1, e2, hq] at hn
      by_cases hl : i + 1 < m
      · simp only [if_pos hl] at hn ⊢
        linear_combination hn
      · simp only [if_neg hl] at hn ⊢
        linear_combination hn
    refine ⟨?_, fun i hi => ?_, ?_⟩
    · have := hr 0 (by omega)
      rw [if_pos hm, e0.1, e0.2] at this
      linear_combination this
    · have := key i (by omega)
      rw [if_pos hi, if_pos hi] at this
      exact this
    · have := key (m - 1) (by omega)
      have e : m - 1 + 1 = m := by omega
      simp only [e, lt_irrefl, if_false, add_zero] at this
      exact this

/-- Slopes computed satisfy the rows, and are the only ones. -/
theorem rows_unique (r y z : ℕ → ℝ) (m : ℕ) (h : ∀ i < m, r i < r (i + 1)) (hm : 0 < m) :
    Rows r y z m ↔ ∀ i ≤ m, z i = slopes r y (m + 1) i := by
  have hlast : slopes r y (m + 1) m = (eliminate (assemble r y m) m).2 / (eliminate (assemble r y m) m).1 := by
    simp [slopes, back]
  have hstep : ∀ i < m, slopes r y (m + 1) i =
      ((eliminate (assemble r y m) i).2 - hInv r i * slopes r y (m + 1) (i + 1)) / (eliminate (assemble r y m) i).1 := by
    intro i hi
    have e : m + 1 - 1 - i = (m + 1 - 1 - (i + 1)) + 1 := by omega
    have e' : m - (m - (i + 1) + 1) = i := by omega
    unfold slopes
    rw [e]
    conv_lhs => unfold back
    simp only [Nat.add_sub_cancel, e', asm_c, if_pos hi]
  constructor
  · intro hr
    have go : ∀ k ≤ m, z (m - k) = slopes r y (m + 1) (m - k) := by
      intro k hk
      induction k with
      | zero =>
        have := hr m le_rfl
        have hp := (pivot r y m h hm m le_rfl).1.ne'
        rw [if_neg (lt_irrefl _), add_zero] at this
        rw [Nat.sub_zero, hlast, ← this]; field_simp
      | succ k ih =>
        have ih := ih (by omega)
        have e : m - k = m - (k + 1) + 1 := by omega
        have hi : m - (k + 1) < m := by omega
        have := hr (m - (k + 1)) (by omega)
        have hp := (pivot r y m h hm (m - (k + 1)) (by omega)).1.ne'
        rw [if_pos hi] at this
        rw [hstep _ hi, ← e, ← ih, ← this, e]; field_simp; ring
    intro i hi
    have := go (m - i) (by omega)
    rwa [show m - (m - i) = i by omega] at this
  · intro hz i hi
    have hp := (pivot r y m h hm i hi).1.ne'
    by_cases hl : i < m
    · rw [if_pos hl, hz i hi, hz (i + 1) (by omega), hstep i hl]; field_simp; ring
    · have : i = m := by omega
      subst this
      rw [if_neg hl, hz i hi, hlast]; field_simp; ring

theorem eqs_sum (r f : ℕ → ℝ) (y z : ℕ → ℕ → ℝ) (m n : ℕ) (h : ∀ j, Eqs r (y j) (z j) m) :
    Eqs r (fun i => ∑ j ∈ Finset.range n, f j * y j i) (fun i => ∑ j ∈ Finset.range n, f j * z j i) m := by
  induction n with
  | zero => simp [Eqs, rhs]
  | succ n ih =>
    obtain ⟨a1, a2, a3⟩ := ih
    obtain ⟨b1, b2, b3⟩ := h n
    simp only [Eqs, rhs, Finset.sum_range_succ] at *
    refine ⟨?_, fun i hi => ?_, ?_⟩
    · linear_combination a1 + f n * b1
    · linear_combination a2 i hi + f n * b2 i hi
    · linear_combination a3 + f n * b3

theorem integrate_sum (r f : ℕ → ℝ) (y z : ℕ → ℕ → ℝ) (m n : ℕ) :
    integrate r (fun i => ∑ j ∈ Finset.range n, f j * y j i) (fun i => ∑ j ∈ Finset.range n, f j * z j i) m =
      ∑ j ∈ Finset.range n, f j * integrate r (y j) (z j) m := by
  induction n with
  | zero =>
    simp only [Finset.range_zero, Finset.sum_empty]
    induction m with
    | zero => simp [integrate]
    | succ m ih => simp [integrate, ih]
  | succ n ih =>
    rw [Finset.sum_range_succ, ← ih]
    simp only [Finset.sum_range_succ]
    clear ih
    induction m with
    | zero => simp only [integrate]; ring
    | succ m ih => simp only [integrate]; rw [ih]; ring

theorem integrate_congr (r y z y' z' : ℕ → ℝ) (m : ℕ) (hy : ∀ i ≤ m, y i = y' i) (hz : ∀ i ≤ m, z i = z' i) :
    integrate r y z m = integrate r y' z' m := by
  induction m with
  | zero => simp only [integrate]; rw [hy 0 le_rfl, hz 0 le_rfl]
  | succ m ih =>
    simp only [integrate]
    rw [ih (fun i hi => hy i (by omega)) (fun i hi => hz i (by omega)), hy m (by omega), hy (m + 1) le_rfl, hz m (by omega),
      hz (m + 1) le_rfl]

theorem unit_sum (f : ℕ → ℝ) (n i : ℕ) (hi : i < n) : ∑ j ∈ Finset.range n, f j * unit j i = f i := by
  rw [Finset.sum_eq_single i]
  · simp [unit]
  · intro b _ hb; simp [unit, Ne.symm hb]
  · intro h; exact absurd (Finset.mem_range.mpr hi) h

/-- Integral of `x²` times a cubic. -/
theorem integral_piece (a b t c0 c1 c2 c3 : ℝ) :
    (∫ x in a..b, x ^ 2 * (c0 + c1 * (x - t) + c2 * (x - t) ^ 2 + c3 * (x - t) ^ 3)) =
      ((c0 - c1 * t + c2 * t ^ 2 - c3 * t ^ 3) * b ^ 3 / 3 + (c1 - 2 * c2 * t + 3 * c3 * t ^ 2) * b ^ 4 / 4 +
        (c2 - 3 * c3 * t) * b ^ 5 / 5 + c3 * b ^ 6 / 6) -
      ((c0 - c1 * t + c2 * t ^ 2 - c3 * t ^ 3) * a ^ 3 / 3 + (c1 - 2 * c2 * t + 3 * c3 * t ^ 2) * a ^ 4 / 4 +
        (c2 - 3 * c3 * t) * a ^ 5 / 5 + c3 * a ^ 6 / 6) := by
  have hd : ∀ x : ℝ, HasDerivAt (fun x : ℝ => (c0 - c1 * t + c2 * t ^ 2 - c3 * t ^ 3) * x ^ 3 / 3 +
      (c1 - 2 * c2 * t + 3 * c3 * t ^ 2) * x ^ 4 / 4 + (c2 - 3 * c3 * t) * x ^ 5 / 5 + c3 * x ^ 6 / 6)
      (x ^ 2 * (c0 + c1 * (x - t) + c2 * (x - t) ^ 2 + c3 * (x - t) ^ 3)) x := by
    intro x
    have h3 := ((hasDerivAt_pow 3 x).const_mul (c0 - c1 * t + c2 * t ^ 2 - c3 * t ^ 3)).div_const 3
    have h4 := ((hasDerivAt_pow 4 x).const_mul (c1 - 2 * c2 * t + 3 * c3 * t ^ 2)).div_const 4
    have h5 := ((hasDerivAt_pow 5 x).const_mul (c2 - 3 * c3 * t)).div_const 5
    have h6 := ((hasDerivAt_pow 6 x).const_mul c3).div_const 6
    refine HasDerivAt.congr_deriv (((h3.add h4).add h5).add h6) ?_
    norm_num; ring
  rw [intervalIntegral.integral_eq_sub_of_hasDerivAt (fun x _ => hd x)]
  exact (by fun_prop : Continuous fun x : ℝ => x ^ 2 * (c0 + c1 * (x - t) + c2 * (x - t) ^ 2 + c3 * (x - t) ^ 3)).intervalIntegrable _ _

/-- Slope of a spline at node `i`. -/
def nodeSlope (r : ℕ → ℝ) (m : ℕ) (s : Pieces) (i : ℕ) : ℝ :=
  if i ≤ m then s.c1 i else s.c1 m + 2 * s.c2 m * (r (m + 1) - r m) + 3 * s.c3 m * (r (m + 1) - r m) ^ 2

theorem slope_right (r f : ℕ → ℝ) (m : ℕ) (s : Pieces) (hs : NaturalSpline r f m s) (i : ℕ) (hi : i ≤ m) :
    nodeSlope r m s (i + 1) = s.c1 i + 2 * s.c2 i * (r (i + 1) - r i) + 3 * s.c3 i * (r (i + 1) - r i) ^ 2 := by
  unfold nodeSlope
  by_cases h : i + 1 ≤ m
  · rw [if_pos h, hs.slope i (by omega)]
  · have : i = m := by omega
    subst this; rw [if_neg h]

theorem spline_eqs (r f : ℕ → ℝ) (m : ℕ) (s : Pieces) (hs : NaturalSpline r f m s) (h : ∀ i < m + 1, r i < r (i + 1)) :
    Eqs r f (nodeSlope r m s) (m + 1) := by
  have hl : ∀ i ≤ m, nodeSlope r m s i = s.c1 i := fun i hi => if_pos hi
  have hf : ∀ i ≤ m, f (i + 1) = f i + s.c1 i * (r (i + 1) - r i) + s.c2 i * (r (i + 1) - r i) ^ 2 + s.c3 i * (r (i + 1) - r i) ^ 3 := by
    intro i hi
    rw [← hs.right i hi, ← hs.left i hi]; rfl
  have hne : ∀ i ≤ m, r (i + 1) - r i ≠ 0 := fun i hi => (sub_pos.mpr (h i (by omega))).ne'
  have left : ∀ i ≤ m, rhs r f i - (2 * nodeSlope r m s i + nodeSlope r m s (i + 1)) * hInv r i = s.c2 i := by
    intro i hi
    rw [slope_right r f m s hs i hi, hl i hi, rhs, hInv, hf i hi]
    have := hne i hi
    generalize r (i + 1) - r i = g at *
    field_simp; ring
  have right : ∀ i ≤ m, (nodeSlope r m s i + 2 * nodeSlope r m s (i + 1)) * hInv r i - rhs r f i =
      s.c2 i + 3 * s.c3 i * (r (i + 1) - r i) := by
    intro i hi
    rw [slope_right r f m s hs i hi, hl i hi, rhs, hInv, hf i hi]
    have := hne i hi
    generalize r (i + 1) - r i = g at *
    field_simp; ring
  refine ⟨?_, fun i hi => ?_, ?_⟩
  · have := left 0 (by omega)
    rw [hs.first] at this
    linear_combination -this
  · have h1 := left (i + 1) (by omega)
    have h2 := right i (by omega)
    have h3 := hs.curvature i (by omega)
    linear_combination h2 - h1 + h3 / 2
  · have h1 := right m le_rfl
    have h2 := hs.last
    rw [Nat.add_sub_cancel]
    linear_combination h1 + h2 / 2

theorem spline_integral (r f : ℕ → ℝ) (m : ℕ) (s : Pieces) (hs : NaturalSpline r f m s) :
    integrate r f (nodeSlope r m s) (m + 1) = radialIntegral r m s := by
  have hl : ∀ i ≤ m, nodeSlope r m s i = s.c1 i := fun i hi => if_pos hi
  have go : ∀ k ≤ m + 1, integrate r f (nodeSlope r m s) k =
      (∫ x in (0 : ℝ)..(r 0), x ^ 2 * (s.c0 0 + s.c1 0 * (x - r 0))) +
      ∑ i ∈ Finset.range k, ∫ x in (r i)..(r (i + 1)), x ^ 2 * s.at r i x := by
    intro k hk
    induction k with
    | zero =>
      have := integral_piece 0 (r 0) (r 0) (s.c0 0) (s.c1 0) 0 0
      simp only [zero_mul, add_zero] at this
      rw [this, integrate, hl 0 (by omega), hs.left 0 (by omega)]
      simp only [Finset.range_zero, Finset.sum_empty]; ring
    | succ k ih =>
      have := integral_piece (r k) (r (k + 1)) (r k) (s.c0 k) (s.c1 k) (s.c2 k) (s.c3 k)
      have hf := hs.right k (by omega)
      simp only [Pieces.at] at hf
      rw [Finset.sum_range_succ, ← add_assoc, ← ih (by omega), integrate]
      simp only [Pieces.at]
      rw [this, slope_right r f m s hs k (by omega), hl k (by omega), ← hf, ← hs.left k (by omega)]
      ring
  exact go (m + 1) le_rfl

end Jdftx.RadW
