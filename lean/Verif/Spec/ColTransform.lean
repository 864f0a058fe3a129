import Verif.Model.Mat3
import Mathlib.Analysis.SpecialFunctions.Complex.Circle
import Mathlib.Algebra.BigOperators.Group.Finset.Basic

/-! # The function that plane-wave coefficients stand for -/
noncomputable section
namespace Jdftx.ColT
open M3

/-- Value at `x` (in lattice coordinates) of the wavefunction with k-point `k` and coefficients `c` of the plane waves `G`. -/
def bloch (k : V3 ℝ) (G : List (V3 Int)) (c : Nat → ℂ) (x : V3 ℝ) : ℂ :=
  ∑ i ∈ Finset.range G.length, c i * Complex.exp ((2 * Real.pi * ∑ d, ((G.getD i 0 d : ℝ) + k d) * x d : ℝ) * Complex.I)

/-- Coefficients of spin component `s` of column `b` in memory, for `n` components of `nb` plane waves. -/
def comp (y : Nat → ℂ) (n nb b s : Nat) : Nat → ℂ := fun i => y (b * (n * nb) + s * nb + i)

end Jdftx.ColT
