import Verif.Model.DftU
import Verif.Spec.Psp
import Mathlib.LinearAlgebra.Matrix.Hermitian

/-!
# Specification for C103: DFT+U corrections
-/
namespace Jdftx.DftU
noncomputable section
open M3 Real
open scoped Matrix

variable {nA no nb nG nq ns : ℕ}

/-- The energy as a function of the states, the lattice and the atoms. -/
def total (p : Params nA no) (st : Fin nq → State nb nG ns) (G : Mat ℝ) (pos : Fin nA → V3 ℝ) : ℝ := energyU p fun s a => rhoAtom p st G pos s a

/-- The gradients with respect to density matrices that the code keeps for the next steps. -/
def grads (p : Params nA no) (st : Fin nq → State nb nG ns) (G : Mat ℝ) (pos : Fin nA → V3 ℝ) : Fin ns → Fin nA → Matrix (Fin no) (Fin no) ℂ := fun s a => gradU p a (rhoAtom p st G pos s a)

/-- The operations are a group of permutations of atoms with unitary rotations, which also keep the external potentials. -/
structure SymOK (p : Params nA no) : Prop where
  ne : p.ops ≠ []
  bij : ∀ o ∈ p.ops, Function.Bijective o.map
  unitary : ∀ o ∈ p.ops, o.rotᴴ * o.rot = 1
  closed : ∀ o ∈ p.ops, (p.ops.map fun o' => (⟨o.map ∘ o'.map, o.rot * o'.rot⟩ : Op nA no)).Perm p.ops
  Vext : ∀ o ∈ p.ops, ∀ a, p.Vext (o.map a) = p.Vext a

/-- A density matrix that has the symmetry. -/
def Invariant (p : Params nA no) (X : Matrix (Ix nA no) (Ix nA no) ℂ) : Prop := ∀ o ∈ p.ops, ∀ a b m m', X (o.map a, m) (o.map b, m') = ∑ n, ∑ n', o.rot m n * X (a, n) (b, n') * star (o.rot m' n')

/-- The state with its wavefunctions changed. -/
def withC (st : State nb nG ns) (C : Matrix (Fin nG) (Fin nb) ℂ) : State nb nG ns := { st with C := C }

/-- The orbitals are a complete shell: a rotation of the wave vector mixes them by an orthogonal matrix. -/
def Shell (orb : Fin no → Psp.Proj) : Prop :=
  ∀ U, Psp.Orth U → ∃ D : Matrix (Fin no) (Fin no) ℝ, Dᵀ * D = 1 ∧ ∀ q o, Psp.prefac (orb o) (mulMV U q) = ∑ o', D o o' * Psp.prefac (orb o') q

end
end Jdftx.DftU
