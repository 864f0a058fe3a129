import Verif.Model.Basis

/-!
# Specification for C35
-/
namespace Jdftx.Basis
open M3

/-- `b` is the Cartesian wave vector with fractional reciprocal coordinates `v`: its products with the lattice vectors (columns of
`R`) are `2π v`. -/
def IsRecip (R : Mat ℝ) (v : V3 ℝ) (b : V3 ℝ) : Prop := ∀ i, dot b (column R i) = 2 * Real.pi * v i

/-- Kinetic energy of a wave vector. -/
noncomputable def kinetic (b : V3 ℝ) : ℝ := (b 0 ^ 2 + b 1 ^ 2 + b 2 ^ 2) / 2

end Jdftx.Basis
