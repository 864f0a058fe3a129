import Verif.Model.RadialWeights
import Mathlib.MeasureTheory.Integral.IntervalIntegral.Basic
import Mathlib.Algebra.BigOperators.Group.Finset.Basic
/-!
# Specification of radial quadrature: natural cubic splines and their integrals
-/
namespace Jdftx.RadW
open MeasureTheory

/-- A cubic polynomial per interval, in powers of the distance from its left node. -/
structure Pieces where
  (c0 c1 c2 c3 : ℕ → ℝ)

/-- Value at `x` of the polynomial of interval `i`. -/
def Pieces.at (s : Pieces) (r : ℕ → ℝ) (i : ℕ) (x : ℝ) : ℝ :=
  s.c0 i + s.c1 i * (x - r i) + s.c2 i * (x - r i) ^ 2 + s.c3 i * (x - r i) ^ 3

/-- The pieces on `m + 1` intervals between nodes `0 … m + 1` form a natural cubic spline through `f`: values at both ends
of each interval are those of `f`, slopes and second derivatives agree at inner nodes and second derivatives vanish at the ends. -/
structure NaturalSpline (r f : ℕ → ℝ) (m : ℕ) (s : Pieces) : Prop where
  left : ∀ i ≤ m, s.c0 i = f i
  right : ∀ i ≤ m, s.at r i (r (i + 1)) = f (i + 1)
  slope : ∀ i < m, s.c1 i + 2 * s.c2 i * (r (i + 1) - r i) + 3 * s.c3 i * (r (i + 1) - r i) ^ 2 = s.c1 (i + 1)
  curvature : ∀ i < m, 2 * s.c2 i + 6 * s.c3 i * (r (i + 1) - r i) = 2 * s.c2 (i + 1)
  first : s.c2 0 = 0
  last : 2 * s.c2 m + 6 * s.c3 m * (r (m + 1) - r m) = 0

/-- Integral of `x²` times the spline from zero to the last node; before the first node the spline goes on as a line. -/
noncomputable def radialIntegral (r : ℕ → ℝ) (m : ℕ) (s : Pieces) : ℝ :=
  (∫ x in (0 : ℝ)..(r 0), x ^ 2 * (s.c0 0 + s.c1 0 * (x - r 0))) +
  ∑ i ∈ Finset.range (m + 1), ∫ x in (r i)..(r (i + 1)), x ^ 2 * s.at r i x

end Jdftx.RadW
