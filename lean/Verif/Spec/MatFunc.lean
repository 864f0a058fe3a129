import Verif.Model.MatFunc
import Verif.Lemmas.MatrixDeriv
import Mathlib.LinearAlgebra.Matrix.Hermitian

/-! # Specification for the functions of matrices -/
namespace Jdftx.MatFunc
open Matrix Jdftx.MatFn
noncomputable section
variable {n : ℕ}

/-- What LAPACK promises for Hermitian matrices. -/
def DiagOK (d : Diag n) : Prop := ∀ A : Mat n, A.IsHermitian → Eig A (d A).1 (d A).2

/-- What LAPACK is expected to do for a unitary matrix: orthonormal eigenvectors with their eigenvalues. -/
def DiagUOK (d : DiagU n) (A : Mat n) : Prop := ((d A).1)ᴴ * (d A).1 = 1 ∧ A * (d A).1 = (d A).1 * diagonal (d A).2

/-- Sum of the squared distances of the elements. -/
def dist2 {m k : Type*} [Fintype m] [Fintype k] (A B : Matrix m k ℂ) : ℝ := ∑ a, ∑ b, ‖A a b - B a b‖ ^ 2

/-- Eigenvalues are equal or further apart than the threshold of `cis_grad`. -/
def Apart (e : Fin n → ℝ) : Prop := ∀ i j, e i ≠ e j → 1e-13 ≤ |e j - e i|

end
end Jdftx.MatFunc
