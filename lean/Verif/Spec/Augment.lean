import Verif.Model.Augment
import Mathlib.LinearAlgebra.Matrix.Notation

/-! # Specification for the density augmentation of ultrasoft pseudopotentials -/
namespace Jdftx.Aug
noncomputable section
open Matrix

/-- Indices of radial functions that are the same up to exchange of the two projectors. -/
def Same (a b : Key) : Prop := a.l = b.l ∧ ((a.l1 = b.l1 ∧ a.p1 = b.p1 ∧ a.l2 = b.l2 ∧ a.p2 = b.p2) ∨ (a.l1 = b.l2 ∧ a.p1 = b.p2 ∧ a.l2 = b.l1 ∧ a.p2 = b.p1))

variable {md : Mode} (sp : Species md)

/-- Energy of a density in the basis of radial functions, for a potential `E` in that basis: the sum over both dimensions of the arrays. -/
def energy (E n : ℕ → ℤ → ℝ) : ℝ := ∑ r ∈ Finset.range sp.keys.length, ∑ c ∈ Finset.range (md.nDens * sp.nAtoms * Nlm sp.V), E r c * n r c

/-- Sum over atoms and bands of filling times expectation value ⟨C|H|C⟩ in projections, where `H` acts as `HC`. -/
def expectation {nb : ℕ} (q : QState sp nb) (C HC : Fin sp.nAtoms → Matrix (Fin sp.n × Fin md.k) (Fin nb) ℂ) : ℝ :=
  q.weight * ∑ at', ∑ b, q.F b * (∑ i, star (C at' i b) * HC at' i b).re

/-- The pseudopotential is one that the code supports: angular momenta up to f, spins that there are, and Hermitian `flj`. -/
structure Valid {nb : ℕ} (qs : List (QState sp nb)) : Prop where
  l : sp.V.length ≤ 4
  flj : ∀ f : sp.Mat, sp.flj = some f → f.IsHermitian
  index : ∀ q ∈ qs, ∀ n, md = .col n → q.index < n

/-- Coefficient of `Y_lm` in the expansion of the product of the harmonics of two projectors (its meaning is `C88_product`). -/
def gaunt (a b : Proj) (l m : ℤ) : ℝ :=
  ((Ylm.expand ((a.l : ℤ) * (a.l + 1) + a.m).toNat ((b.l : ℤ) * (b.l + 1) + b.m).toNat).map fun t => if t.l = l ∧ t.m = m then (t.coeff : ℝ) else 0).sum

/-- Component of the spin density matrix: the spin's own part, the total, or up, down and half of the contractions with the Pauli matrices `σx`, `σy`. -/
def component {n : ℕ} : (md : Mode) → ℕ → Matrix (Fin n × Fin md.k) (Fin n × Fin md.k) ℂ → ℕ → Matrix (Fin n) (Fin n) ℂ
  | .col _, index, R, s => Matrix.of fun i j => if s = index then R (i, (0 : Fin 1)) (j, (0 : Fin 1)) else 0
  | .ncol1, _, R, _ => Matrix.of fun i j => ∑ σ : Fin 2, R (i, σ) (j, σ)
  | .ncol4, _, R, s => Matrix.of fun i j => ∑ σ : Fin 2, ∑ τ : Fin 2,
      (if s = 0 then !![1, 0; 0, 0] else if s = 1 then !![0, 0; 0, 1] else if s = 2 then !![0, 1 / 2; 1 / 2, 0] else !![0, -Complex.I / 2; Complex.I / 2, 0] : Matrix (Fin 2) (Fin 2) ℂ) σ τ * R (i, σ) (j, τ)

open Classical in
/-- Coefficient of radial function `r` and harmonic `l, m` in the density of a density matrix: the sum over all ordered pairs of projectors. -/
def coefficient (R : sp.Mat1) (r : Fin sp.keys.length) (l m : ℤ) : ℝ :=
  1 / sp.detR * ∑ i, ∑ j, if Same (sp.keys.get r) ⟨(sp.proj i).l, (sp.proj i).p, (sp.proj j).l, (sp.proj j).p, l⟩
    then gaunt (sp.proj i) (sp.proj j) l m * (Complex.I ^ (((sp.proj j).l : ℤ) - (sp.proj i).l) * R j i).re else 0

/-- Column of spin component `s`, atom `at'` and harmonic `l, m`. -/
def position (s : ℕ) (at' : Fin sp.nAtoms) (l m : ℤ) : ℤ := l * (l + 1) + m + Nlm sp.V * (at' + sp.nAtoms * s)

/-- Projections changed by `t dC`. -/
def QState.move {sp : Species md} {nb : ℕ} (q : QState sp nb) (t : ℝ) (dC : Fin sp.nAtoms → Matrix (Fin sp.n × Fin md.k) (Fin nb) ℂ) : QState sp nb :=
  { q with VdagC := fun a => q.VdagC a + (t : ℂ) • dC a }

end
end Jdftx.Aug
