import Verif.Model.Mat3
import Mathlib.Analysis.SpecialFunctions.Complex.Circle

/-!
# Specification for C30
-/
namespace Jdftx.PL
open Jdftx.M3

/-- Squared distance of two positions with each coordinate put on the unit circle. -/
noncomputable def circleDistSq (a b : V3 ℝ) : ℝ :=
  ∑ k, ‖Complex.exp (2 * Real.pi * a k * Complex.I) - Complex.exp (2 * Real.pi * b k * Complex.I)‖ ^ 2

/-- The positions coincide within the tolerance, modulo lattice vectors. -/
def Coincide (thr : ℝ) (a b : V3 ℝ) : Prop := circleDistSq a b < thr ^ 2

end Jdftx.PL
