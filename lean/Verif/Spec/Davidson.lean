import Verif.Model.Davidson
import Verif.Spec.ElecMin

/-! # Specification for the Davidson band solver -/
namespace Jdftx.Davidson
open Matrix Jdftx.ElecMin
open scoped ComplexOrder
noncomputable section

variable {B P : Type} [Fintype B]

/-- LAPACK returns eigenvalues in ascending order. -/
structure LapackOK (l : ∀ n, Lapack n) : Prop where
  ok : ∀ n, (l n).OK
  sorted : ∀ n A, A.IsHermitian → Monotone ((l n).eig A).2

/-- Hermitian Hamiltonian, positive overlap, kinetic energies that are not negative. -/
structure Sys.OK (S : Sys B P) : Prop where
  herm : S.H.IsHermitian
  overlap : S.O.PosSemidef
  kinetic : ∀ i, 0 ≤ S.kgSq i
  volume : 0 < S.detR

/-- Orthonormal wavefunctions between which the Hamiltonian is diagonal, with ascending energies. -/
structure Ritz (S : Sys B P) {n : ℕ} (C : Matrix B (Fin n) ℂ) (e : Fin n → ℝ) : Prop where
  ortho : Cᴴ * (S.O * C) = 1
  diag : Cᴴ * (S.H * C) = diagonal fun b => (e b : ℂ)
  sorted : Monotone e

/-- The exact solutions: as many as there are components. -/
structure Exact (S : Sys B P) {n : ℕ} (Q : Matrix B (Fin n) ℂ) (e : Fin n → ℝ) : Prop extends Ritz S Q e where
  complete : n = Fintype.card B

/-- The wavefunctions `C` are combinations of those of `D`. -/
def Within {n m : ℕ} (C : Matrix B (Fin n) ℂ) (D : Matrix B (Fin m) ℂ) : Prop := ∃ Y : Matrix (Fin m) (Fin n) ℂ, C = D * Y

/-- The bands whose preconditioned residuals expand the subspace: those that are not done and whose residual is not small. -/
def kept (S : Sys B P) (p : Params) (s : State B P) (done : ℕ) : List (Fin s.nb) :=
  open Classical in (List.finRange s.nb).filter fun b => decide (done ≤ b.val ∧ normCut B p s.nb ≤ normSq (correction S s) b)

/-- Settings that the input accepts. -/
structure Params.OK (p : Params) : Prop where
  bands : 0 < p.nOut
  ratio : 1 ≤ p.ratio
  weight : 0 < p.weight

end
end Jdftx.Davidson
