import Verif.Model.LatticeStep
import Verif.Spec.Symmetrize
import Mathlib.LinearAlgebra.Matrix.Trace

/-! # What the lattice minimiser owes its user -/
namespace Jdftx.LatMin
open Jdftx.M3 Jdftx.Sym

/-- Lattice vector `k` (column `k` of the matrix) is the same in both lattices. -/
def SameVector (R R0 : Mat ℝ) (k : Fin 3) : Prop := ∀ i, R i k = R0 i k

/-- Lengths of all lattice combinations are unchanged by the rotation: the operation is a symmetry of the lattice. -/
def LatticeSymmetry (R : Mat ℝ) (rot : Mat Int) : Prop :=
  ∀ x : V3 ℝ, dot (mulMV R (mulMV (castMat rot) x)) (mulMV R (mulMV (castMat rot) x)) = dot (mulMV R x) (mulMV R x)

/-- A strain the user allows: symmetric, no displacement of fixed lattice vectors, and compatible with all symmetries. -/
structure Allowed (R : Mat ℝ) (fixed : Fin 3 → Bool) (sym : List (Op ℝ)) (d : Mat ℝ) : Prop where
  symm : ∀ i j, d i j = d j i
  fixed : ∀ k, fixed k = true → ∀ i, mulMV d (column R k) i = 0
  invariant : InvariantTensor (Matrix.of R) sym (Matrix.of d)

/-- LatticeMinimizer.cpp:73-75: inner product of strains. -/
def sdot (x y : Mat ℝ) : ℝ := trace (mulMM x (transpose y))

end Jdftx.LatMin
