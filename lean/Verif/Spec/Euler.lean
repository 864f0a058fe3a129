import Verif.Model.Mat3
import Mathlib.Data.Complex.Basic
import Mathlib.LinearAlgebra.Matrix.Notation
import Mathlib.LinearAlgebra.Matrix.ConjTranspose
import Mathlib.LinearAlgebra.Matrix.Determinant.Basic

/-! # What a rotation is, and what it does to a spin -/
namespace Jdftx.Euler
open M3

/-- Rows of length 1, perpendicular to each other. -/
def Orthogonal (m : Mat ℝ) : Prop := ∀ i j, dot (m i) (m j) = if i = j then 1 else 0

/-- A proper rotation. -/
def Rotation (m : Mat ℝ) : Prop := Orthogonal m ∧ (Matrix.of m).det = 1

/-- The operator of the spin component along `v`: the combination of the Pauli matrices with coefficients `v`. -/
noncomputable def pauli (v : V3 ℝ) : Matrix (Fin 2) (Fin 2) ℂ :=
  !![(v 2 : ℂ), v 0 - Complex.I * v 1; v 0 + Complex.I * v 1, -(v 2 : ℂ)]

/-- Spin of a spinor in direction `v`. -/
noncomputable def spin (psi : Fin 2 → ℂ) (v : V3 ℝ) : ℂ := dotProduct (star psi) (Matrix.mulVec (pauli v) psi)

end Jdftx.Euler
