import Verif.Model.Blip
import Mathlib.Algebra.BigOperators.Group.Finset.Basic
import Mathlib.Order.Interval.Finset.Basic
import Mathlib.Data.Int.Interval
/-!
# Specification of resampling: a sum of cubic splines centred on all mesh points
-/
namespace Jdftx.Blip
open Jdftx.M3

/-- The blip function: cubic spline with nodes at the integers that is zero outside `(-2, 2)` and one at zero. -/
noncomputable def beta (u : ℝ) : ℝ :=
  if |u| ≤ 1 then 1 - 3 / 2 * u ^ 2 + 3 / 4 * |u| ^ 3 else if |u| ≤ 2 then 1 / 4 * (2 - |u|) ^ 3 else 0

/-- Coefficient at mesh point `n`, repeated periodically. -/
def periodic (S : V3 ℤ) (inBlip : ℤ → ℝ) (n0 n1 n2 : ℤ) : ℝ :=
  inBlip (n2 % S 2 + S 2 * (n1 % S 1 + S 1 * (n0 % S 0)))

/-- Sum over all mesh points from `lo` to `hi` of the coefficient times the blip functions centred there, at `x` in lattice
coordinates. -/
noncomputable def blipSum (S : V3 ℤ) (inBlip : ℤ → ℝ) (lo hi : V3 ℤ) (x : V3 ℝ) : ℝ :=
  ∑ n0 ∈ Finset.Icc (lo 0) (hi 0), ∑ n1 ∈ Finset.Icc (lo 1) (hi 1), ∑ n2 ∈ Finset.Icc (lo 2) (hi 2),
    periodic S inBlip n0 n1 n2 * beta (S 0 * x 0 - n0) * beta (S 1 * x 1 - n1) * beta (S 2 * x 2 - n2)

/-- The range covers all mesh points less than two steps away from `x`. -/
def Covers (S lo hi : V3 ℤ) (x : V3 ℝ) : Prop := ∀ d, (lo d : ℝ) ≤ S d * x d - 2 ∧ S d * x d + 2 ≤ hi d

end Jdftx.Blip
