import Verif.Spec.Matrix
import Verif.Model.MatrixReduce
import Mathlib.LinearAlgebra.Matrix.Determinant.Basic

/-!
# Specification for C60, C64
-/
namespace Jdftx.Mtx
noncomputable section
open ComplexConjugate

/-- The mathematical matrix held by the upper-left `n` by `n` part. -/
def mat (n : Nat) (m : M ℂ) : Matrix (Fin n) (Fin n) ℂ := fun i j => entry m i.val j.val

/-- Contract of LAPACK's `zgetrf`: the rows of `A`, permuted by `σ`, are `L U` with `L` unit lower triangular and `U` upper
triangular; `lu` holds `L` below the diagonal and `U` on and above it. -/
def IsLU (n : Nat) (A lu : M ℂ) (σ : Equiv.Perm (Fin n)) : Prop :=
  lu.nr = n ∧ lu.nc = n ∧
  ∀ i j : Fin n, mat n A (σ i) j = ∑ l, (if l < i then mat n lu i l else if l = i then 1 else 0) * (if l ≤ j then mat n lu l j else 0)

/-- Sum of the squared magnitudes of all elements. -/
def frobSq (a : MOp ℂ) : ℝ :=
  ∑ i ∈ Finset.range a.nRows.toNat, ∑ j ∈ Finset.range a.nCols.toNat, Complex.normSq (a.elem i j)

end
end Jdftx.Mtx
