import Verif.Model.Spline
import Mathlib.Analysis.Calculus.Deriv.Basic

/-!
# Specification for C42
-/
namespace Jdftx.Spline
noncomputable section

/-- `F 0` is four times continuously differentiable with derivatives `F 1`, ..., `F 4`. -/
def Smooth4 (F : Nat → ℝ → ℝ) : Prop :=
  (∀ k < 4, ∀ x, HasDerivAt (F k) (F (k+1) x) x) ∧ Continuous (F 4)

end
end Jdftx.Spline
