import Verif.Model.CellMap

/-!
# Specification for C57
-/
namespace Jdftx.CellMap
open M3

/-- The cells differ by a lattice vector of the supercell, whose lattice vectors are the columns of `M` in units of those of the unit cell. -/
def SameClass (M : Mat Int) (c c' : Box.IV) : Prop :=
  ∃ n : V3 Int, c'.x = c.x + mulMV M n 0 ∧ c'.y = c.y + mulMV M n 1 ∧ c'.z = c.z + mulMV M n 2

/-- The supercell is a superlattice of the unit cell, and `D` is a common denominator of the inverse of `M`, below `1/tol`. -/
structure Super (p : Inp) (M : Mat Int) (D : Int) : Prop where
  unit : det p.R ≠ 0
  super : det M ≠ 0
  sup : p.Rsup = mulMM p.R (castMat M)
  denom : ∃ A : Mat Int, ∀ v, mulMV A (mulMV M v) = fun i => D * v i
  pos : 0 < D
  tol0 : 0 < p.tol
  tolD : p.tol * D ≤ 1
  smooth : 0 < p.rSmooth

/-- `circ` and `neigh` describe the Wigner-Seitz cell of the supercell: every point (without components in truncated directions) has a translate by a
supercell lattice vector (without such components) that is no closer to any of the neighbours than to the origin and within `circ` of the origin. -/
def Covers (p : Inp) (M : Mat Int) : Prop :=
  (∀ x : V3 ℝ, (∀ l, p.trunc l = true → x l = 0) → ∃ n : V3 Int, (∀ l, p.trunc l = true → mulMV M n l = 0) ∧
    lenSq (mulMV p.R fun l => x l - (mulMV M n l : ℤ)) ≤ p.circ ^ 2 ∧
    ∀ r ∈ p.neigh, lenSq (mulMV p.R fun l => x l - (mulMV M n l : ℤ)) ≤ lenSq (sub (mulMV p.R fun l => x l - (mulMV M n l : ℤ)) r)) ∧
  0 ≤ p.circ ∧
  ∀ x : V3 ℝ, lenSq x ≤ p.circ ^ 2 → lenSq x ≤ p.big

end Jdftx.CellMap
