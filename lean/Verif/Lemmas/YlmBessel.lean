import Verif.Spec.Ylm
import Verif.Model.Ylm
import Mathlib.Analysis.SpecialFunctions.Trigonometric.Series
import Mathlib.Analysis.SpecificLimits.Normed
import Mathlib.Tactic.Ring
import Mathlib.Tactic.FieldSimp
import Mathlib.Tactic.Linarith
import Mathlib.Tactic.IntervalCases

/-!
# Spherical Bessel functions
-/
namespace Jdftx.Ylm

theorem oddFactorial_pos (l : Nat) : 0 < oddFactorial l := by
  induction l with
  | zero => exact one_pos
  | succ l ih => rw [oddFactorial]; positivity

theorem oddFactorial_two (n : Nat) : ((2 * n + 1).factorial : ℝ) = 2 ^ n * n.factorial * oddFactorial n := by
  induction n with
  | zero => simp [oddFactorial]
  | succ n ih =>
    rw [show 2 * (n + 1) + 1 = (2 * n + 1) + 1 + 1 by ring, Nat.factorial_succ (2 * n + 1 + 1), Nat.factorial_succ (2 * n + 1), Nat.factorial_succ n, oddFactorial]
    push_cast
    rw [ih]; ring

/-- Terms of the power series, without `x^l`. -/
noncomputable def aT (l k : Nat) (x : ℝ) : ℝ := (-(x * x) / 2) ^ k / (k.factorial * oddFactorial (l + k))

theorem aT_succ (l k : Nat) (x : ℝ) : aT l (k + 1) x = aT l k x * (-(x * x) / ((2 * (k : ℝ) + 2) * ((2 * (k : ℝ) + 2) + 2 * (l : ℝ) + 1))) := by
  unfold aT
  have h := oddFactorial_pos (l + k)
  have hk : ((k.factorial : ℕ) : ℝ) ≠ 0 := by positivity
  rw [← add_assoc, oddFactorial, pow_succ, Nat.factorial_succ]
  push_cast
  generalize (-(x * x) / 2) ^ k = v
  have h1 : 2 * ((l : ℝ) + k) + 3 ≠ 0 := by positivity
  have h2 : (2 * (k : ℝ) + 2) + 2 * (l : ℝ) + 1 ≠ 0 := by positivity
  have h3 : (k : ℝ) + 1 ≠ 0 := by positivity
  have h4 : 2 * (k : ℝ) + 2 ≠ 0 := by positivity
  field_simp
  ring

theorem aT_rec_zero (l : Nat) (x : ℝ) : (2 * (l : ℝ) + 3) * aT (l + 1) 0 x - aT l 0 x = 0 := by
  unfold aT
  have h := oddFactorial_pos l
  simp only [pow_zero, Nat.factorial_zero, Nat.cast_one, one_mul, add_zero, oddFactorial]
  have h1 : 2 * (l : ℝ) + 3 ≠ 0 := by positivity
  field_simp
  ring

theorem aT_rec (l k : Nat) (x : ℝ) : (2 * (l : ℝ) + 3) * aT (l + 1) (k + 1) x - aT l (k + 1) x = x * x * aT (l + 2) k x := by
  unfold aT
  have h := oddFactorial_pos (l + k)
  have hk : ((k.factorial : ℕ) : ℝ) ≠ 0 := by positivity
  rw [show l + 1 + (k + 1) = l + k + 1 + 1 by ring, show l + (k + 1) = l + k + 1 by ring, show l + 2 + k = l + k + 1 + 1 by ring,
    oddFactorial, oddFactorial, pow_succ, Nat.factorial_succ]
  push_cast
  generalize (-(x * x) / 2) ^ k = v
  have h1 : 2 * ((l : ℝ) + k) + 3 ≠ 0 := by positivity
  have h2 : 2 * ((l : ℝ) + k + 1) + 3 ≠ 0 := by positivity
  have h3 : (k : ℝ) + 1 ≠ 0 := by positivity
  field_simp
  ring

theorem aT_zero_eq (k : Nat) (x : ℝ) : aT 0 k x = (-1) ^ k * x ^ (2 * k) / (2 * k + 1).factorial := by
  unfold aT
  rw [oddFactorial_two, zero_add, div_pow, neg_eq_neg_one_mul, mul_pow, ← pow_two, ← pow_mul]
  have h := oddFactorial_pos k
  have hk : ((k.factorial : ℕ) : ℝ) ≠ 0 := by positivity
  field_simp

theorem series_zero (x : ℝ) (hx : x ≠ 0) : HasSum (fun k => x ^ 0 * aT 0 k x) (sphericalBessel 0 x) := by
  have h := (Real.hasSum_sin x).div_const x
  have e : (fun k => x ^ 0 * aT 0 k x) = fun n : Nat => (-1) ^ n * x ^ (2 * n + 1) / (2 * n + 1).factorial / x := by
    funext n
    rw [aT_zero_eq, pow_succ]
    field_simp
  rw [e]; exact h

theorem series_one (x : ℝ) (hx : x ≠ 0) : HasSum (fun k => x ^ 1 * aT 1 k x) (sphericalBessel 1 x) := by
  have h := ((Real.hasSum_sin x).div_const (x ^ 2)).sub ((Real.hasSum_cos x).div_const x)
  have e : ∀ n : Nat, (-1) ^ n * x ^ (2 * n + 1) / (2 * n + 1).factorial / x ^ 2 - (-1) ^ n * x ^ (2 * n) / (2 * n).factorial / x
      = (aT 0 n x - (2 * (n : ℝ) + 1) * aT 0 n x) / x := by
    intro n
    rw [aT_zero_eq, pow_succ, Nat.factorial_succ]
    push_cast
    have h1 : ((2 * n).factorial : ℝ) ≠ 0 := by positivity
    have h2 : 2 * (n : ℝ) + 1 ≠ 0 := by positivity
    field_simp
  have h' := (hasSum_nat_add_iff' 1).2 h
  have z0 : ∑ i ∈ Finset.range 1, ((-1) ^ i * x ^ (2 * i + 1) / ((2 * i + 1).factorial : ℝ) / x ^ 2 - (-1) ^ i * x ^ (2 * i) / ((2 * i).factorial : ℝ) / x) = 0 := by
    rw [Finset.sum_range_one, e]; simp
  rw [z0, sub_zero] at h'
  have e2 : (fun k => x ^ 1 * aT 1 k x) = fun n : Nat => (-1) ^ (n + 1) * x ^ (2 * (n + 1) + 1) / ((2 * (n + 1) + 1).factorial : ℝ) / x ^ 2
      - (-1) ^ (n + 1) * x ^ (2 * (n + 1)) / ((2 * (n + 1)).factorial : ℝ) / x := by
    funext n
    rw [e]
    have := oddFactorial_pos n
    have hk : ((n.factorial : ℕ) : ℝ) ≠ 0 := by positivity
    have h1 : 2 * (n : ℝ) + 3 ≠ 0 := by positivity
    have h3 : (n : ℝ) + 1 ≠ 0 := by positivity
    unfold aT
    rw [zero_add, show 1 + n = n + 1 by ring, oddFactorial, pow_succ (-(x * x) / 2), Nat.factorial_succ]
    push_cast
    generalize (-(x * x) / 2) ^ n = v
    field_simp
    ring
  rw [e2]; exact h'

theorem series_all (x : ℝ) (hx : x ≠ 0) : ∀ l : Nat, HasSum (fun k => x ^ l * aT l k x) (sphericalBessel l x)
  | 0 => series_zero x hx
  | 1 => series_one x hx
  | l + 2 => by
    have h := ((series_all x hx (l + 1)).mul_left ((2 * (l : ℝ) + 3) / x)).sub (series_all x hx l)
    have h' := (hasSum_nat_add_iff' 1).2 h
    have e : ∀ k, (2 * (l : ℝ) + 3) / x * (x ^ (l + 1) * aT (l + 1) k x) - x ^ l * aT l k x = x ^ l * ((2 * (l : ℝ) + 3) * aT (l + 1) k x - aT l k x) := by
      intro k; rw [pow_succ]; field_simp
    have z0 : ∑ i ∈ Finset.range 1, ((2 * (l : ℝ) + 3) / x * (x ^ (l + 1) * aT (l + 1) i x) - x ^ l * aT l i x) = 0 := by
      rw [Finset.sum_range_one, e, aT_rec_zero, mul_zero]
    rw [z0, sub_zero] at h'
    have e2 : (fun k => x ^ (l + 2) * aT (l + 2) k x) = fun k => (2 * (l : ℝ) + 3) / x * (x ^ (l + 1) * aT (l + 1) (k + 1) x) - x ^ l * aT l (k + 1) x := by
      funext k; rw [e, aT_rec]; ring
    rw [e2, sphericalBessel]; exact h'

/-! ### The code -/

theorem leading_eq (l : Nat) (x : ℝ) : leading l x = x ^ l * aT l 0 x := by
  unfold leading
  induction l with
  | zero => simp [aT, oddFactorial]
  | succ l ih =>
    rw [List.range_succ, List.foldl_append, ih]
    simp only [List.foldl_cons, List.foldl_nil, aT, pow_zero, Nat.factorial_zero, Nat.cast_one, one_mul, add_zero, oddFactorial, pow_succ]
    have h := oddFactorial_pos l
    have h1 : 2 * (l : ℝ) + 3 ≠ 0 := by positivity
    field_simp

theorem loop_eq (l : Nat) (x : ℝ) (n : Nat) :
    (List.range n).foldl (fun (s : ℝ × ℝ) (k : Nat) =>
      let i : ℝ := 2 * (k : ℝ) + 2
      let t := s.1 * (-(x * x) / (i * (i + 2 * (l : ℝ) + 1)))
      (t, s.2 + t)) (leading l x, leading l x) = (x ^ l * aT l n x, ∑ k ∈ Finset.range (n + 1), x ^ l * aT l k x) := by
  induction n with
  | zero => simp [leading_eq]
  | succ n ih =>
    rw [List.range_succ, List.foldl_append, ih, Finset.sum_range_succ _ (n + 1)]
    simp only [List.foldl_cons, List.foldl_nil, aT_succ l n]
    refine Prod.ext ?_ ?_ <;> simp only <;> ring

theorem seriesLoop_eq (l : Nat) (x : ℝ) : seriesLoop l x (leading l x) = ∑ k ∈ Finset.range 8, x ^ l * aT l k x := by
  have := congrArg Prod.snd (loop_eq l x 7)
  exact this

theorem tail_ratio (l : Nat) (x : ℝ) (hl : l ≤ 6) (hx : |x| ≤ 1 + 0.1 * (l : ℝ)) (k : Nat) : |aT l (k + 8) x| ≤ |aT l 8 x| * (1 / 100) ^ k := by
  have hl' : (l : ℝ) ≤ 6 := by exact_mod_cast hl
  have h16 : |x| ≤ 1.6 := by linarith
  have hxx : x * x ≤ 2.56 := by
    have := mul_le_mul h16 h16 (abs_nonneg _) (by norm_num)
    rw [abs_mul_abs_self] at this
    norm_num at this ⊢; linarith
  induction k with
  | zero => simp
  | succ k ih =>
    rw [show k + 1 + 8 = (k + 8) + 1 by ring, aT_succ, abs_mul, pow_succ, ← mul_assoc]
    refine mul_le_mul ih ?_ (abs_nonneg _) (by positivity)
    rw [abs_div, abs_neg, abs_of_nonneg (mul_self_nonneg x)]
    push_cast
    have hk : (0 : ℝ) ≤ k := Nat.cast_nonneg _
    have hl0 : (0 : ℝ) ≤ l := Nat.cast_nonneg _
    rw [abs_of_pos (by positivity), div_le_iff₀ (by positivity)]
    nlinarith [mul_nonneg hk hk, mul_nonneg hk hl0]

theorem tail_first (l : Nat) (x : ℝ) (hl : l ≤ 6) (hx : |x| ≤ 1 + 0.1 * (l : ℝ)) : |aT l 8 x| ≤ 99 / 100 * (4 / 10 ^ 15) / oddFactorial l := by
  have e : |aT l 8 x| = (x ^ 2) ^ 8 / 2 ^ 8 / (40320 * oddFactorial (l + 8)) := by
    unfold aT
    have h := oddFactorial_pos (l + 8)
    rw [abs_div, abs_of_pos (show (0 : ℝ) < (Nat.factorial 8 : ℝ) * oddFactorial (l + 8) by positivity), abs_pow, abs_div, abs_neg, ← pow_two,
      abs_of_nonneg (sq_nonneg x), div_pow]
    norm_num [Nat.factorial]
  have hx2 : x ^ 2 ≤ (1 + 0.1 * (l : ℝ)) ^ 2 := by rw [← sq_abs]; gcongr
  have hx8 : (x ^ 2) ^ 8 ≤ ((1 + 0.1 * (l : ℝ)) ^ 2) ^ 8 := by gcongr
  rw [e]
  have h := oddFactorial_pos l
  have o : oddFactorial (l + 8) = (2 * (l : ℝ) + 17) * (2 * (l : ℝ) + 15) * (2 * (l : ℝ) + 13) * (2 * (l : ℝ) + 11) * (2 * (l : ℝ) + 9) * (2 * (l : ℝ) + 7)
      * (2 * (l : ℝ) + 5) * (2 * (l : ℝ) + 3) * oddFactorial l := by
    simp only [oddFactorial]; push_cast; ring
  rw [o, div_div, div_le_div_iff₀ (by positivity) h]
  generalize oddFactorial l = f at *
  generalize (x ^ 2) ^ 8 = u at *
  have key : ((1 + 0.1 * (l : ℝ)) ^ 2) ^ 8 ≤ 99 / 100 * (4 / 10 ^ 15) * (2 ^ 8 * (40320 * ((2 * (l : ℝ) + 17) * (2 * (l : ℝ) + 15) * (2 * (l : ℝ) + 13) * (2 * (l : ℝ) + 11) * (2 * (l : ℝ) + 9) * (2 * (l : ℝ) + 7)
      * (2 * (l : ℝ) + 5) * (2 * (l : ℝ) + 3)))) := by
    interval_cases l <;> norm_num
  calc u * f ≤ _ * f := mul_le_mul_of_nonneg_right (hx8.trans key) h.le
    _ = _ := by ring

theorem series_err (l : Nat) (x : ℝ) (h0 : x ≠ 0) (hl : l ≤ 6) (hx : |x| ≤ 1 + 0.1 * (l : ℝ)) :
    |seriesLoop l x (leading l x) - sphericalBessel l x| ≤ 4 / 10 ^ 15 * (|x| ^ l / oddFactorial l) := by
  have h := (hasSum_nat_add_iff' 8).2 (series_all x h0 l)
  rw [← seriesLoop_eq] at h
  have g := (hasSum_geometric_of_lt_one (r := (1 / 100 : ℝ)) (by norm_num) (by norm_num)).mul_left (|x| ^ l * |aT l 8 x|)
  have b := h.norm_le_of_bounded g (fun k => by
    rw [Real.norm_eq_abs, abs_mul, abs_pow, mul_assoc]
    exact mul_le_mul_of_nonneg_left (tail_ratio l x hl hx k) (by positivity))
  rw [Real.norm_eq_abs, abs_sub_comm] at b
  have f := tail_first l x hl hx
  calc _ ≤ |x| ^ l * |aT l 8 x| * (1 - 1 / 100)⁻¹ := b
    _ ≤ |x| ^ l * (99 / 100 * (4 / 10 ^ 15) / oddFactorial l) * (1 - 1 / 100)⁻¹ := by gcongr
    _ = _ := by ring

theorem closed_form (l : Nat) (x : ℝ) (h0 : x ≠ 0) (hl : l ≤ 6) (hx : |x| > 1 + 0.1 * (l : ℝ)) : bessel l x = sphericalBessel l x := by
  unfold bessel
  rw [if_pos hx]
  interval_cases l <;> simp only [sphericalBessel] <;> field_simp <;> push_cast <;> ring

end Jdftx.Ylm
