import Verif.Lemmas.Blip
/-!
# C121: resampling evaluates the sum of cubic splines on all mesh points

The nested interpolation with its wrapped indices is, at every point, the periodic sum of spline functions centred on all mesh
points with the coefficients as factors; it is periodic, keeps constants and reads only inside the array if the mesh has at
least two points in each direction.
-/
namespace Jdftx.Blip
open Jdftx.M3

/-- The interpolated value is the sum over all mesh points of coefficient times spline, for every range of mesh points that
includes those near `x`; all other points contribute nothing. -/
theorem C121_sum (S : V3 ℤ) (hS : ∀ d, 2 ≤ S d) (inBlip : ℤ → ℝ) (x : V3 ℝ) (lo hi : V3 ℤ) (hc : Covers S lo hi x) :
    interpolate S inBlip x = .ok (blipSum S inBlip lo hi x) := by
  have hr : ∀ (k : Fin 3) (d : Fin 4), 0 ≤ index (S k) (cellOf (S k) (x k)) d ∧ index (S k) (cellOf (S k) (x k)) d < S k := by
    intro k d
    have := hS k
    rw [index_eq (S k) (hS k)]
    exact ⟨Int.emod_nonneg _ (by omega), Int.emod_lt_of_pos _ (by omega)⟩
  unfold interpolate
  simp only
  rw [if_pos fun d0 d1 d2 => position_range S _ _ _ (hr 0 d0) (hr 1 d1) (hr 2 d2)]
  congr 1
  have e : blipSum S inBlip lo hi x = ∑ n0 ∈ Finset.Icc (lo 0) (hi 0), (∑ n1 ∈ Finset.Icc (lo 1) (hi 1),
      (∑ n2 ∈ Finset.Icc (lo 2) (hi 2), periodic S inBlip n0 n1 n2 * beta (S 2 * x 2 - n2)) * beta (S 1 * x 1 - n1)) *
        beta (S 0 * x 0 - n0) := by
    unfold blipSum
    refine Finset.sum_congr rfl fun n0 _ => ?_
    rw [Finset.sum_mul]
    refine Finset.sum_congr rfl fun n1 _ => ?_
    rw [Finset.sum_mul, Finset.sum_mul]
    refine Finset.sum_congr rfl fun n2 _ => ?_
    ring
  rw [e, sum_line _ _ _ _ (hc 0).1 (hc 0).2, frac_eq]
  congr 1
  funext d0
  rw [sum_line _ _ _ _ (hc 1).1 (hc 1).2, frac_eq]
  congr 1
  funext d1
  rw [sum_line _ _ _ _ (hc 2).1 (hc 2).2, frac_eq]
  congr 1
  funext d2
  rw [index_eq _ (hS 0), index_eq _ (hS 1), index_eq _ (hS 2)]
  rfl

/-- A range as in `C121_sum` exists for every point. -/
theorem C121_covers (S : V3 ℤ) (x : V3 ℝ) : ∃ lo hi, Covers S lo hi x := by
  refine ⟨fun d => ⌊(S d : ℝ) * x d⌋ - 2, fun d => ⌊(S d : ℝ) * x d⌋ + 3, fun d => ?_⟩
  have h0 := Int.floor_le ((S d : ℝ) * x d)
  have h1 := Int.lt_floor_add_one ((S d : ℝ) * x d)
  push_cast
  constructor <;> linarith

/-- Displacing the point by a lattice vector does not change the value. -/
theorem C121_periodic (S : V3 ℤ) (inBlip : ℤ → ℝ) (x : V3 ℝ) (n : V3 ℤ) :
    interpolate S inBlip (fun d => x d + n d) = interpolate S inBlip x := by
  have hc : ∀ d, cellOf (S d) (x d + n d) = cellOf (S d) (x d) := by
    intro d
    unfold cellOf
    rw [Int.floor_add_intCast]
    congr 2
    push_cast; ring
  have hf : ∀ d, fracOf (S d) (x d + n d) = fracOf (S d) (x d) := by
    intro d
    unfold fracOf
    rw [hc, Int.floor_add_intCast]
    push_cast; ring
  unfold interpolate
  simp only [hc, hf]

/-- A constant field keeps its value at every point inside the input cell, and is zero outside. -/
theorem C121_constant (S : V3 ℤ) (hS : ∀ d, 2 ≤ S d) (toIn : Mat ℝ) (reduceOut : V3 ℝ → V3 ℝ) (boundaryIn : V3 ℝ → ℝ)
    (c : ℝ) (x : V3 ℝ) :
    resample toIn reduceOut boundaryIn S (fun _ => gammaZero * gammaZero * gammaZero * c) x =
      .ok (open Classical in if boundaryIn (mulMV toIn (reduceOut x)) = 0 then 0 else c) := by
  unfold resample
  simp only
  by_cases h : boundaryIn (mulMV toIn (reduceOut x)) = 0
  · rw [if_pos h, if_pos h]
  · rw [if_neg h, if_neg h]
    have hr : ∀ (k : Fin 3) (y : ℝ) (d : Fin 4), 0 ≤ index (S k) (cellOf (S k) y) d ∧ index (S k) (cellOf (S k) y) d < S k := by
      intro k y d
      have := hS k
      rw [index_eq (S k) (hS k)]
      exact ⟨Int.emod_nonneg _ (by omega), Int.emod_lt_of_pos _ (by omega)⟩
    unfold interpolate
    simp only
    rw [if_pos fun d0 d1 d2 => position_range S _ _ _ (hr 0 _ d0) (hr 1 _ d1) (hr 2 _ d2)]
    simp only [blip_const, gammaZero]
    congr 1
    ring

/-- With one mesh point in each direction the array is read outside its range. Grids with a cutoff have at least four
(GridInfo.cpp:208, 246-248). -/
theorem C121_single_fails (inBlip : ℤ → ℝ) : interpolate (fun _ => 1) inBlip (fun _ => 0) = .error .ub := by
  unfold interpolate
  simp only
  rw [if_neg]
  intro h
  have h := (h 0 0 3).2
  have hcell : cellOf 1 0 = 0 := by simp [cellOf]
  rw [hcell] at h
  simp [position, index] at h

/-- The hypotheses of `C121_sum` are met, by a point half way between mesh points. -/
example : (∀ d : Fin 3, 2 ≤ (fun _ => 4 : V3 ℤ) d) ∧
    Covers (fun _ => 4) (fun _ => -2) (fun _ => 3) (fun _ => 1 / 8) := by
  refine ⟨fun _ => by norm_num, fun _ => ?_⟩
  norm_num

/-- The spline is one at its centre, a quarter at the neighbours and zero two steps away. -/
example : beta 0 = 1 ∧ beta 1 = 1 / 4 ∧ beta (-1) = 1 / 4 ∧ beta 2 = 0 := by
  refine ⟨?_, ?_, ?_, ?_⟩ <;> norm_num [beta, abs_of_nonneg, abs_neg]

end Jdftx.Blip
