import Verif.Model.SpinDiag
import Mathlib.Data.Matrix.Mul
import Mathlib.LinearAlgebra.Matrix.Notation
import Mathlib.LinearAlgebra.Matrix.Determinant.Basic
import Mathlib.LinearAlgebra.Matrix.Trace
import Mathlib.LinearAlgebra.UnitaryGroup
import Mathlib.Analysis.Calculus.Deriv.Basic

/-!
# Specification for C73
-/
namespace Jdftx.SpinDiag
noncomputable section
open scoped Matrix

/-- The spin density matrix stored as the four numbers `x`. -/
def spinMatrix (x : Spin4) : Matrix (Fin 2) (Fin 2) ℂ :=
  !![(x 0 : ℂ), x 2 + x 3 * Complex.I; x 2 - x 3 * Complex.I, x 1]

/-- `y` is `x` after the rotation `U` of the spin axes. -/
def Rotated (U : Matrix (Fin 2) (Fin 2) ℂ) (x y : Spin4) : Prop := spinMatrix y = U * spinMatrix x * Uᴴ

/-- The eigenvalues of the spin matrix, the larger first. -/
def Eigenvalues (x : Spin4) (l0 l1 : ℝ) : Prop :=
  l1 ≤ l0 ∧ ∀ z : ℂ, (z • (1 : Matrix (Fin 2) (Fin 2) ℂ) - spinMatrix x).det = (z - l0) * (z - l1)

/-- `(g0, g1)` is the gradient of `F` at `p`: along every curve through `p`, the chain rule holds with it. -/
def GradientAt (F : (Fin 2 → ℝ) → ℝ) (g p : Fin 2 → ℝ) : Prop :=
  ∀ (c : ℝ → Fin 2 → ℝ) (c' : Fin 2 → ℝ), c 0 = p → (∀ s, HasDerivAt (fun t => c t s) (c' s) 0) →
    HasDerivAt (fun t => F (c t)) (∑ s, g s * c' s) 0

end
end Jdftx.SpinDiag
