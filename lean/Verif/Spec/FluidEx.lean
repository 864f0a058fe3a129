import Verif.Model.FluidEx
import Mathlib.Analysis.Calculus.Deriv.Basic
import Mathlib.LinearAlgebra.Matrix.Trace

/-!
# Specification for the excess free energies of classical fluids (C93)
-/
namespace Jdftx.Fluid
open Box ExCorr Cavity Filter Topology
open scoped ComplexConjugate
noncomputable section

/-- Derivative of a quantity that may fail to be a number: it is a number near the point, and has the derivative there. -/
def HasDerivO (f : ℝ → Option ℝ) (f' t : ℝ) : Prop := ∃ F : ℝ → ℝ, (∀ᶠ s in 𝓝 t, f s = some (F s)) ∧ HasDerivAt F f' t

/-- The symmetric traceless matrix with the given components. -/
def full (m : Tensor ℝ) : Matrix (Fin 3) (Fin 3) ℝ := !![m.xxr, m.xy, m.zx; m.xy, m.yyr, m.yz; m.zx, m.yz, -(m.xxr + m.yyr)]

/-- Carnahan-Starling: excess free energy per particle, in units of the temperature, of hard spheres that fill the fraction `η`. -/
def carnahanStarling (η : ℝ) : ℝ := η * (4 - 3 * η) / (1 - η) ^ 2

/-- The scale functions of the White-Bear functional, mark II (Hansen-Goos and Roth). -/
def whiteBear2 (x : ℝ) : ℝ := 1 + (1 / 3) * (2 - x + 2 * (1 - x) * Real.log (1 - x) / x)
def whiteBear3 (x : ℝ) : ℝ := 1 - (2 * x - 3 * x ^ 2 + 2 * x ^ 3 + 2 * (1 - x) ^ 2 * Real.log (1 - x)) / (3 * x ^ 2)

/-- Inner product of real fields given by their Fourier components, summed over the grid points of the cell instead of integrated. -/
def innerG (g : Grid) (X Y : Arr) : ℝ := ∑ i ∈ Finset.range (nG g.S), weight g.S i * (conj (X i) * Y i).re

/-- `X'` is the derivative of the curve of arrays `X` at `t`. -/
def ADeriv (g : Grid) (X : ℝ → Arr) (X' : Arr) (t : ℝ) : Prop := ∀ i : Nat, i < nG g.S → HasDerivAt (fun s => X s i) (X' i) t

/-- A uniform field. -/
def Uniform (g : Grid) (X : Arr) (N : ℝ) : Prop := X 0 = N ∧ ∀ i : Nat, 0 < i → i < nG g.S → X i = 0

end
end Jdftx.Fluid
