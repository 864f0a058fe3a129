import Verif.Model.Excite
import Mathlib.Data.List.Perm.Basic
import Mathlib.Order.Bounds.Basic

/-! # Specification for the dump of excitations -/
namespace Jdftx.Excite
noncomputable section
open scoped ComplexConjugate

variable {G : Type} [Fintype G] (c : Calc G)

/-- A band of the calculation that is more than half filled. -/
def Occupied (q b : ℕ) : Prop := q < c.nStates ∧ b < c.nBands ∧ 1 / 2 < c.F q b

/-- A band of the calculation that is not more than half filled. -/
def Empty (q b : ℕ) : Prop := q < c.nStates ∧ b < c.nBands ∧ c.F q b ≤ 1 / 2

/-- In each state energies ascend and fillings descend with the number of the band, and there is an occupied band. -/
structure Filled : Prop where
  eig : ∀ q, q < c.nStates → ∀ a b, a ≤ b → b < c.nBands → c.eig q a ≤ c.eig q b
  fill : ∀ q, q < c.nStates → ∀ a b, a ≤ b → b < c.nBands → c.F q b ≤ c.F q a
  some : ∀ q, q < c.nStates → ∃ b, Occupied c q b

/-- `std::sort` by energy: the order of equal elements is not specified. -/
def IsSort (sort : List Exc → List Exc) : Prop := ∀ l, (sort l).Perm l ∧ (sort l).Pairwise fun a b => a.dE ≤ b.dE

/-- ⟨u|r|o⟩ over all spinor components. -/
def dipole (nSpinor : ℕ) (q o u : ℕ) (i : Fin 3) : ℂ := (c.dV : ℂ) * ∑ s ∈ Finset.range nSpinor, ∑ g, conj (c.psi q u s g) * (c.r i g : ℂ) * c.psi q o s g

end
end Jdftx.Excite
