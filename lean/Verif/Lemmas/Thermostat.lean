import Verif.Model.Thermostat
import Verif.Spec.Thermostat
import Mathlib.Analysis.Calculus.Deriv.Mul
import Mathlib.Analysis.Calculus.Deriv.Add
import Mathlib.Analysis.Calculus.Deriv.Pow
import Mathlib.Analysis.Calculus.Deriv.Abs
import Mathlib.Tactic.Linarith
import Mathlib.Tactic.FieldSimp
import Mathlib.Tactic.Ring

/-! # Lemmas for C89 -/
namespace Jdftx.Stat
open Jdftx.M3 Jdftx.Ion

theorem kinetic_eq {n : Nat} (mass : Fin n → ℝ) (v : Motion ℝ n) : kinetic mass v = atomKE mass v := by
  unfold kinetic atomKE
  refine Finset.sum_congr rfl fun a _ => ?_
  simp only [dot, Fin.sum_univ_three]; ring

theorem atomKE_massDot {n : Nat} (mass : Fin n → ℝ) (v : Motion ℝ n) : massDot mass v v = 2 * atomKE mass v := by
  unfold massDot atomKE
  rw [Finset.mul_sum]
  refine Finset.sum_congr rfl fun a _ => ?_
  rw [Finset.mul_sum]
  exact Finset.sum_congr rfl fun i _ => by ring

theorem massDot_add {n : Nat} (mass : Fin n → ℝ) (u v w : Motion ℝ n) :
    massDot mass u (v + w) = massDot mass u v + massDot mass u w := by
  simp only [massDot, Pi.add_apply, mul_add, Finset.sum_add_distrib]

theorem massDot_force {n : Nat} (mass : Fin n → ℝ) (hm : ∀ a, mass a ≠ 0) (v F : Motion ℝ n) :
    massDot mass v (fun a => (1 / mass a) • F a) = power F v := by
  unfold massDot power
  refine Finset.sum_congr rfl fun a _ => Finset.sum_congr rfl fun i _ => ?_
  have := hm a
  simp only [Pi.smul_apply, smul_eq_mul]
  field_simp

theorem atomKE_deriv {n : Nat} (mass : Fin n → ℝ) (v : ℝ → Motion ℝ n) (v' : Motion ℝ n) (t : ℝ)
    (h : ∀ a i, HasDerivAt (fun τ => v τ a i) (v' a i) t) :
    HasDerivAt (fun τ => atomKE mass (v τ)) (massDot mass (v t) v') t := by
  unfold atomKE massDot
  refine HasDerivAt.fun_sum fun a _ => HasDerivAt.fun_sum fun i _ => ?_
  refine ((((h a i).fun_pow 2).const_mul (mass a)).div_const 2).congr_deriv ?_
  push_cast; ring

theorem strainKE_deriv (W : ℝ) (e : ℝ → Mat ℝ) (e' : Mat ℝ) (t : ℝ) (h : ∀ i j, HasDerivAt (fun τ => e τ i j) (e' i j) t) :
    HasDerivAt (fun τ => strainKE W (e τ)) (W * contract (e t) e') t := by
  unfold strainKE contract
  simp only [Finset.mul_sum]
  refine HasDerivAt.fun_sum fun a _ => HasDerivAt.fun_sum fun i _ => ?_
  refine ((((h a i).fun_pow 2).const_mul W).div_const 2).congr_deriv ?_
  push_cast; ring

/-- The energy of a chain and the heat it takes up change only by what drives its first element. -/
theorem chain_sum (q T w first : ℝ) (hw : w ≠ 0) (len : Nat) (hl : len ≠ 0) (x : Nat → ℝ) :
    q * T / w ^ 2 * x 0 * chainRate len first q (w * w) x 0
      + ∑ j ∈ Finset.range (len - 1), T / w ^ 2 * x (j+1) * chainRate len first q (w * w) x (j+1)
      + T * (q * x 0 + ∑ j ∈ Finset.range (len - 1), x (j+1))
      = q * T / w ^ 2 * x 0 * first + T * q * x 0 := by
  obtain ⟨m, rfl⟩ := Nat.exists_eq_succ_of_ne_zero hl
  have key : ∀ k, k ≤ m → ∑ j ∈ Finset.range k, (T / w ^ 2 * x (j+1) * chainRate (m+1) first q (w * w) x (j+1) + T * x (j+1))
      = (if 0 < k then q * T / w ^ 2 * x 0 ^ 2 * x 1 else 0)
        - (if k = 0 then 0 else if k + 1 < m + 1 then T / w ^ 2 * x k ^ 2 * x (k+1) else 0) := by
    intro k
    induction k with
    | zero => intro _; simp
    | succ k ih =>
      intro hk
      rw [Finset.sum_range_succ, ih (by omega)]
      unfold chainRate
      rw [if_pos (by omega : k + 1 < m + 1)]
      rcases Nat.eq_zero_or_pos k with rfl | hk0
      · have hm0 : 0 < m := by omega
        by_cases h2 : 0 + 1 + 1 < m + 1
        · simp [h2, hm0]; field_simp; ring
        · simp [h2, hm0]; field_simp; ring
      · by_cases h2 : k + 1 + 1 < m + 1
        · have : k ≠ 0 := by omega
          simp [h2, this, hk0, hk]; field_simp; ring
        · have : k ≠ 0 := by omega
          simp [h2, this, hk0, hk]; field_simp; ring
  have h := key m le_rfl
  rw [Finset.sum_add_distrib, ← Finset.mul_sum] at h
  simp only [Nat.add_one_sub_one, Nat.succ_eq_add_one]
  have h0 : chainRate (m+1) first q (w*w) x 0 = first - (if 0 < m then x 0 * x 1 else 0) := by
    unfold chainRate; simp
  rw [h0]
  rcases Nat.eq_zero_or_pos m with rfl | hm
  · simp; ring
  · have e1 : m ≠ 0 := by omega
    rw [if_pos hm]
    rw [if_pos hm, if_neg e1, if_neg (by omega)] at h
    linear_combination h

theorem chain_deriv (q T w first : ℝ) (hw : w ≠ 0) (len : Nat) (hl : len ≠ 0) (x y : ℝ → Nat → ℝ) (t : ℝ)
    (hx : ∀ j, HasDerivAt (fun τ => x τ j) (chainRate len first q (w * w) (x t) j) t)
    (hy : ∀ j, HasDerivAt (fun τ => y τ j) (x t j) t) :
    HasDerivAt (fun τ => chainKE q T w len (x τ) + chainHeat q T len (y τ))
      (q * T / w ^ 2 * x t 0 * first + T * q * x t 0) t := by
  rw [← chain_sum q T w first hw len hl (x t)]
  unfold chainKE chainHeat
  refine HasDerivAt.fun_add (HasDerivAt.fun_add ?_ (HasDerivAt.fun_sum fun j _ => ?_))
    (HasDerivAt.const_mul T (HasDerivAt.fun_add ((hy 0).const_mul q) (HasDerivAt.fun_sum fun j _ => hy (j+1))))
  · refine ((((hx 0).fun_pow 2).const_mul (q * T / w ^ 2)).div_const 2).congr_deriv ?_
    push_cast; ring
  · refine ((((hx (j+1)).fun_pow 2).const_mul (T / w ^ 2)).div_const 2).congr_deriv ?_
    push_cast; ring

/-- The volume grows at the rate given by the trace of the strain rate. -/
theorem volume_deriv (R : ℝ → Mat ℝ) (e : Mat ℝ) (t : ℝ) (hR : ∀ i j, HasDerivAt (fun τ => R τ i j) (mulMM e (R t) i j) t)
    (h0 : det (R t) ≠ 0) : HasDerivAt (fun τ => |det (R τ)|) (|det (R t)| * M3.trace e) t := by
  have hd : HasDerivAt (fun τ => det (R τ)) (det (R t) * M3.trace e) t := by
    simp only [det, box, dot, cross, row, vec]
    refine HasDerivAt.congr_deriv (HasDerivAt.fun_add (HasDerivAt.fun_add
      ((hR 0 0).fun_mul (((hR 1 1).fun_mul (hR 2 2)).fun_sub ((hR 1 2).fun_mul (hR 2 1))))
      ((hR 0 1).fun_mul (((hR 1 2).fun_mul (hR 2 0)).fun_sub ((hR 1 0).fun_mul (hR 2 2)))))
      ((hR 0 2).fun_mul (((hR 1 0).fun_mul (hR 2 1)).fun_sub ((hR 1 1).fun_mul (hR 2 0))))) ?_
    simp only [mulMM, M3.trace]; ring
  rcases lt_or_gt_of_ne h0 with h | h
  · refine ((hasDerivAt_abs_neg h).scomp t hd).congr_deriv ?_
    rw [abs_of_neg h]; simp
  · refine ((hasDerivAt_abs_pos h).scomp t hd).congr_deriv ?_
    rw [abs_of_pos h]; simp

theorem trace_contract (m : Mat ℝ) : M3.trace (mulMM (transpose m) m) = contract m m := by
  simp only [M3.trace, mulMM, transpose, contract, Fin.sum_univ_three]; ring

/-- Power of the strain rate on the velocities. -/
theorem massDot_strain {n : Nat} (mass : Fin n → ℝ) (e : Mat ℝ) (v : Motion ℝ n) :
    massDot mass v (fun a => mulMV e (v a)) = contract (fun i j => ∑ a, mass a * (v a i * v a j)) e := by
  unfold massDot contract
  simp only [Finset.sum_mul]
  have : ∀ i : Fin 3, (∑ j : Fin 3, ∑ a : Fin n, mass a * (v a i * v a j) * e i j) = ∑ a, ∑ j, mass a * (v a i * v a j) * e i j :=
    fun i => Finset.sum_comm
  simp only [this]
  rw [Finset.sum_comm]
  refine Finset.sum_congr rfl fun i _ => Finset.sum_congr rfl fun a _ => ?_
  simp only [mulMV, Fin.sum_univ_three]; ring

theorem massDot_smul {n : Nat} (mass : Fin n → ℝ) (c : ℝ) (u v : Motion ℝ n) :
    massDot mass u (fun a => c • v a) = c * massDot mass u v := by
  unfold massDot
  simp only [Finset.mul_sum, Pi.smul_apply, smul_eq_mul]
  exact Finset.sum_congr rfl fun a _ => Finset.sum_congr rfl fun i _ => by ring

theorem massDot_sub {n : Nat} (mass : Fin n → ℝ) (u v w : Motion ℝ n) :
    massDot mass u (fun a => v a - w a) = massDot mass u v - massDot mass u w := by
  simp only [massDot, Pi.sub_apply, mul_sub, Finset.sum_sub_distrib]

end Jdftx.Stat
