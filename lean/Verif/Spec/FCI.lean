import Verif.Model.FCI

/-! # Specification of the matrix elements for configuration interaction -/
namespace Jdftx.FCI
open Jdftx.M3
open scoped ComplexConjugate
noncomputable section

variable {G R : Type} [Fintype R] {nSp : ℕ} (c : Calc G R nSp)

/-- An orbital: state and band. -/
structure Orb where
  q : ℕ
  i : ℕ
deriving DecidableEq

/-- The orbital exists. -/
def Calc.Has (a : Orb) : Prop := a.q < c.nStates ∧ a.i < c.nBands

open Classical in
/-- The density of a pair of orbitals; the Bloch phase of a wave vector beyond the threshold is included. -/
def Calc.pair (a b : Orb) (dk : V3 ℝ) : G → ℂ := fun r =>
  (∑ s, conj (c.psi a.q a.i s r) * c.psi b.q b.i s r) * (if dk 0 ^ 2 + dk 1 ^ 2 + dk 2 ^ 2 > c.thrSq then c.bloch dk r else 1)

/-- The Coulomb matrix element of four orbitals: the potential of the pair `a b` with the density of the pair `d e`. -/
def Calc.coulomb (a b d e : Orb) : ℂ :=
  ∑ x, conj (c.coul (fun j => c.k b.q j - c.k a.q j) (c.fft (c.pair a b 0)) x) *
    c.fft (c.pair d e fun j => (c.k e.q j - c.k d.q j) - (c.k b.q j - c.k a.q j)) x

/-- Order of a pair as written in the file: by state, then by band. -/
def Ordered (a b : Orb) : Prop := b.q < a.q ∨ b.q = a.q ∧ b.i ≤ a.i

/-- Both pairs have the same spin and the difference of wave vectors is the same up to reciprocal lattice vectors. -/
def Calc.Conserves (a b d e : Orb) : Prop :=
  c.spin a.q = c.spin b.q ∧ c.spin d.q = c.spin e.q ∧ PL.circDistanceSquared (fun j => c.k b.q j - c.k a.q j) (fun j => c.k e.q j - c.k d.q j) ≤ c.thrSq

/-- The elements the file is meant to have. -/
def Calc.Wanted (a b d e : Orb) : Prop := c.Has a ∧ c.Has b ∧ c.Has d ∧ c.Has e ∧ Ordered a b ∧ Ordered d e ∧ c.Conserves a b d e

/-- The orbitals of an element of the loop. -/
def orbs (x : Quad × St G R nSp) : Orb × Orb × Orb × Orb := (⟨x.1.q1, x.2.i1⟩, ⟨x.1.q2, x.2.i2⟩, ⟨x.1.q3, x.2.i3⟩, ⟨x.1.q4, x.2.i4⟩)

/-- The number of an orbital in the file, from one. -/
def Calc.number (a : Orb) : ℕ := a.i * c.nStates + a.q + 1

end
end Jdftx.FCI
