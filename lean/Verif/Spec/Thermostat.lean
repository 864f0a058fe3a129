import Verif.Model.Mat3
import Mathlib.Data.Real.Basic
import Mathlib.Algebra.BigOperators.Group.Finset.Defs
import Mathlib.Algebra.BigOperators.Intervals
import Mathlib.Data.Fintype.BigOperators
import Mathlib.LinearAlgebra.Matrix.Notation

/-!
# Specification for C89: energies of atoms coupled to Nosé-Hoover chains and a barostat

Textbook quantities, independent of the code.
-/
namespace Jdftx.Stat

noncomputable section

/-- Kinetic energy of atoms with given masses and Cartesian velocities. -/
def atomKE {n : Nat} (mass : Fin n → ℝ) (v : Fin n → Fin 3 → ℝ) : ℝ := ∑ a, ∑ i, mass a * v a i ^ 2 / 2

/-- Kinetic energy of a chain of thermostats that controls `q` degrees of freedom at temperature `T` with frequency `w`: the
first has inertia `q T/w²`, the others `T/w²`. -/
def chainKE (q T w : ℝ) (len : Nat) (x : Nat → ℝ) : ℝ :=
  q * T / w ^ 2 * x 0 ^ 2 / 2 + ∑ j ∈ Finset.range (len - 1), T / w ^ 2 * x (j+1) ^ 2 / 2

/-- Heat taken up by the chain; `y` are the coordinates whose rates of change are the chain's velocities. -/
def chainHeat (q T : ℝ) (len : Nat) (y : Nat → ℝ) : ℝ := T * (q * y 0 + ∑ j ∈ Finset.range (len - 1), y (j+1))

/-- Kinetic energy of the barostat with inertia `W` at a given strain rate. -/
def strainKE (W : ℝ) (e : Fin 3 → Fin 3 → ℝ) : ℝ := ∑ i, ∑ j, W * e i j ^ 2 / 2

/-- Rate of work of a stress at a given strain rate, per volume. -/
def contract (s e : Fin 3 → Fin 3 → ℝ) : ℝ := ∑ i, ∑ j, s i j * e i j

/-- Rate of work of forces. -/
def power {n : Nat} (F v : Fin n → Fin 3 → ℝ) : ℝ := ∑ a, ∑ i, F a i * v a i

/-- Scalar product weighted with the masses. -/
def massDot {n : Nat} (mass : Fin n → ℝ) (u v : Fin n → Fin 3 → ℝ) : ℝ := ∑ a, ∑ i, mass a * (u a i * v a i)

end
end Jdftx.Stat
