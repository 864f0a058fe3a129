import Verif.Spec.Blip
import Mathlib.Algebra.BigOperators.Ring.Finset
import Mathlib.Tactic.Ring
import Mathlib.Tactic.Linarith
import Mathlib.Tactic.NormNum
import Mathlib.Tactic.Positivity
/-! # Lemmas on blips -/
namespace Jdftx.Blip
open Jdftx.M3

theorem beta_out (u : ℝ) (h : 2 ≤ |u|) : beta u = 0 := by
  unfold beta
  rw [if_neg (by linarith)]
  by_cases h2 : |u| ≤ 2
  · rw [if_pos h2, le_antisymm h2 h]; norm_num
  · rw [if_neg h2]

theorem beta0 (t : ℝ) (h0 : 0 ≤ t) (h1 : t < 1) : beta (t + 1) = 1 / 4 * (1 - t) ^ 3 := by
  unfold beta
  rw [abs_of_nonneg (by linarith)]
  by_cases h : t + 1 ≤ 1
  · have : t = 0 := by linarith
    subst this; norm_num
  · rw [if_neg h, if_pos (by linarith)]; ring

theorem beta1 (t : ℝ) (h0 : 0 ≤ t) (h1 : t < 1) : beta t = 1 / 4 * (4 - 6 * t ^ 2 + 3 * t ^ 3) := by
  unfold beta
  rw [abs_of_nonneg h0, if_pos h1.le]; ring

theorem beta2 (t : ℝ) (h0 : 0 ≤ t) (h1 : t < 1) : beta (t - 1) = 1 / 4 * (1 + 3 * t + 3 * t ^ 2 - 3 * t ^ 3) := by
  unfold beta
  rw [abs_of_nonpos (by linarith), if_pos (by linarith)]; ring

theorem beta3 (t : ℝ) (h0 : 0 ≤ t) (h1 : t < 1) : beta (t - 2) = 1 / 4 * t ^ 3 := by
  unfold beta
  rw [abs_of_nonpos (by linarith), if_neg (by linarith), if_pos (by linarith)]; ring

/-- The sum in one direction has four terms. -/
theorem sum_line (f : ℤ → ℝ) (v : ℝ) (lo hi : ℤ) (hlo : (lo : ℝ) ≤ v - 2) (hhi : v + 2 ≤ hi) :
    ∑ n ∈ Finset.Icc lo hi, f n * beta (v - n) = blip (v - ⌊v⌋) fun d => f (⌊v⌋ + (d : ℕ) - 1) := by
  have h0 := Int.floor_le v
  have h1 := Int.lt_floor_add_one v
  have hl : lo + 2 ≤ ⌊v⌋ := Int.le_floor.mpr (by push_cast; linarith)
  have hh : ⌊v⌋ + 2 ≤ hi := by
    have : ((⌊v⌋ + 2 : ℤ) : ℝ) ≤ hi := by push_cast; linarith
    exact_mod_cast this
  have hsub : Finset.Icc (⌊v⌋ - 1) (⌊v⌋ + 2) ⊆ Finset.Icc lo hi := Finset.Icc_subset_Icc (by omega) hh
  rw [← Finset.sum_subset hsub]
  · have e : Finset.Icc (⌊v⌋ - 1) (⌊v⌋ + 2) = {⌊v⌋ - 1, ⌊v⌋, ⌊v⌋ + 1, ⌊v⌋ + 2} := by
      ext n; simp only [Finset.mem_Icc, Finset.mem_insert, Finset.mem_singleton]; omega
    rw [e, Finset.sum_insert (by simp only [Finset.mem_insert, Finset.mem_singleton]; omega),
      Finset.sum_insert (by simp only [Finset.mem_insert, Finset.mem_singleton]; omega),
      Finset.sum_insert (by simp only [Finset.mem_singleton]; omega), Finset.sum_singleton]
    have ht0 : 0 ≤ v - ⌊v⌋ := by linarith
    have ht1 : v - ⌊v⌋ < 1 := by linarith
    have b0 := beta0 _ ht0 ht1
    have b1 := beta1 _ ht0 ht1
    have b2 := beta2 _ ht0 ht1
    have b3 := beta3 _ ht0 ht1
    have e0 : v - ((⌊v⌋ - 1 : ℤ) : ℝ) = v - ⌊v⌋ + 1 := by push_cast; ring
    have e2 : v - ((⌊v⌋ + 1 : ℤ) : ℝ) = v - ⌊v⌋ - 1 := by push_cast; ring
    have e3 : v - ((⌊v⌋ + 2 : ℤ) : ℝ) = v - ⌊v⌋ - 2 := by push_cast; ring
    rw [e0, e2, e3, b0, b1, b2, b3]
    have i0 : ⌊v⌋ + (((0 : Fin 4) : ℕ) : ℤ) - 1 = ⌊v⌋ - 1 := by simp
    have i1 : ⌊v⌋ + (((1 : Fin 4) : ℕ) : ℤ) - 1 = ⌊v⌋ := by simp
    have i2 : ⌊v⌋ + (((2 : Fin 4) : ℕ) : ℤ) - 1 = ⌊v⌋ + 1 := by simp; ring
    have i3 : ⌊v⌋ + (((3 : Fin 4) : ℕ) : ℤ) - 1 = ⌊v⌋ + 2 := by simp; ring
    unfold blip
    simp only [i0, i1, i2, i3]
    ring
  · intro n hn hn'
    rw [Finset.mem_Icc] at hn hn'
    rw [beta_out, mul_zero]
    rcases (by omega : n + 2 ≤ ⌊v⌋ ∨ ⌊v⌋ + 3 ≤ n) with h | h
    · have : ((n + 2 : ℤ) : ℝ) ≤ ⌊v⌋ := by exact_mod_cast h
      push_cast at this
      rw [abs_of_nonneg (by linarith)]; linarith
    · have : ((⌊v⌋ + 3 : ℤ) : ℝ) ≤ n := by exact_mod_cast h
      push_cast at this
      rw [abs_of_nonpos (by linarith)]; linarith

theorem cell_eq (S : ℤ) (x : ℝ) : cellOf S x = ⌊(S : ℝ) * x⌋ - ⌊x⌋ * S := by
  unfold cellOf
  rw [show (x - ⌊x⌋) * (S : ℝ) = (S : ℝ) * x - ((⌊x⌋ * S : ℤ) : ℝ) by push_cast; ring, Int.floor_sub_intCast]

theorem frac_eq (S : ℤ) (x : ℝ) : fracOf S x = (S : ℝ) * x - ⌊(S : ℝ) * x⌋ := by
  unfold fracOf
  rw [cell_eq]; push_cast; ring

theorem cell_range (S : ℤ) (hS : 0 < S) (x : ℝ) : 0 ≤ cellOf S x ∧ cellOf S x < S := by
  have hS' : (0 : ℝ) < S := by exact_mod_cast hS
  have h0 := Int.floor_le x
  have h1 := Int.lt_floor_add_one x
  unfold cellOf
  constructor
  · exact Int.floor_nonneg.mpr (mul_nonneg (by linarith) hS'.le)
  · rw [Int.floor_lt]; nlinarith

theorem index_eq (S : ℤ) (hS : 2 ≤ S) (x : ℝ) (d : Fin 4) :
    index S (cellOf S x) d = (⌊(S : ℝ) * x⌋ + (d : ℕ) - 1) % S := by
  obtain ⟨h0, h1⟩ := cell_range S (by omega) x
  have hd := d.isLt
  have e : (⌊(S : ℝ) * x⌋ + (d : ℕ) - 1) % S = (cellOf S x + (d : ℕ) - 1) % S := by
    rw [cell_eq, show ⌊(S : ℝ) * x⌋ - ⌊x⌋ * S + (d : ℕ) - 1 = ⌊(S : ℝ) * x⌋ + (d : ℕ) - 1 - ⌊x⌋ * S by ring,
      Int.sub_mul_emod_self_right]
  rw [e]
  unfold index
  simp only
  by_cases ha : cellOf S x + (d : ℕ) - 1 ≥ S
  · rw [if_pos ha, if_neg (by omega), ← Int.sub_emod_right, Int.emod_eq_of_lt (by omega) (by omega)]
  · rw [if_neg ha]
    by_cases hb : cellOf S x + (d : ℕ) - 1 < 0
    · rw [if_pos hb, ← Int.add_emod_right, Int.emod_eq_of_lt (by omega) (by omega)]
    · rw [if_neg hb, Int.emod_eq_of_lt (by omega) (by omega)]

theorem position_range (S : V3 ℤ) (a b c : ℤ) (ha : 0 ≤ a ∧ a < S 0) (hb : 0 ≤ b ∧ b < S 1) (hc : 0 ≤ c ∧ c < S 2) :
    0 ≤ position S a b c ∧ position S a b c < S 0 * S 1 * S 2 := by
  unfold position
  have h1 : 0 ≤ b + S 1 * a := by nlinarith
  have h2 : b + S 1 * a + 1 ≤ S 0 * S 1 := by nlinarith
  constructor
  · nlinarith
  · nlinarith

theorem blip_const (t c : ℝ) : (blip t fun _ => c) = 3 / 2 * c := by unfold blip; ring

end Jdftx.Blip
