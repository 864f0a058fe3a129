import Verif.Model.ElecMin
import Verif.Lemmas.MatrixDeriv

/-!
# Specification for the electronic minimiser
-/
namespace Jdftx.ElecMin
open Matrix Jdftx.MatFn Filter Topology
open scoped ComplexOrder
noncomputable section

variable {Q B : Type} [Fintype Q] [Fintype B] {n : ℕ}

/-- What LAPACK promises: an orthonormal set of eigenvectors with their eigenvalues for Hermitian matrices; the lower triangular factor with
positive diagonal exactly for positive definite matrices. -/
structure Lapack.OK (l : Lapack n) : Prop where
  eig : ∀ A : Mat n, A.IsHermitian → Eig A (l.eig A).1 (l.eig A).2
  chol : ∀ A L : Mat n, l.chol A = some L → Lower L ∧ L * Lᴴ = A
  posDef : ∀ A : Mat n, A.PosDef → (l.chol A).isSome

/-- The energy is a differentiable function of the density matrices, with the Hamiltonians as derivative; the overlap is positive. -/
structure Phys.OK (p : Phys Q B) (w : Q → ℝ) : Prop where
  deriv : ∀ (G : ℝ → Q → Matrix B B ℂ) (G' : Q → Matrix B B ℂ), (∀ t q, (G t q).IsHermitian) →
    (∀ q a b, HasDerivAt (fun t => G t q a b) (G' q a b) 0) → HasDerivAt (fun t => p.E (G t)) (∑ q, w q * (p.H (G 0) q * G' q).trace.re) 0
  hermitian : ∀ G : Q → Matrix B B ℂ, (∀ q, (G q).IsHermitian) → ∀ q, (p.H G q).IsHermitian
  overlap : ∀ q, (p.O q).PosSemidef

/-- The wavefunctions are orthonormal. -/
def Orthonormal (p : Phys Q B) (s : Q → QState B n) : Prop := ∀ q, ((s q).C)ᴴ * (p.O q * (s q).C) = 1

/-- The accumulated rotations are unitary and agree with each other. -/
def Unitary (s : Q → QState B n) : Prop := ∀ q, ((s q).rotPrev)ᴴ * (s q).rotPrev = 1 ∧ (s q).rotPrevC = (s q).rotPrev ∧ (s q).rotPrevCinv = ((s q).rotPrev)ᴴ

/-- A search direction: orthogonal to the wavefunctions, with Hermitian auxiliary part. -/
def Tangent (p : Phys Q B) (s : Q → QState B n) (dir : Grad Q B n) : Prop :=
  ∀ q, ((s q).C)ᴴ * (p.O q * dir.C q) = 0 ∧ (dir.Haux q).IsHermitian

/-- Eigenvalues of a state are either equal or at least 1e-6 apart. -/
def Separated (s : Q → QState B n) : Prop := ∀ q a b, (s q).eps a ≠ (s q).eps b → 1e-6 ≤ |(s q).eps a - (s q).eps b|

/-- Neither occupation nor vacancy is below the cut-off in the entropy. -/
def CutOK (i : Info Q n) (f : Search Q n) (s : Q → QState B n) : Prop :=
  i.kind = .fermi → ∀ q j, i.cut < fill i f (fun q => (s q).eps) q j ∧ i.cut < 1 - fill i f (fun q => (s q).eps) q j

/-- Spins of the states: up and down for collinear spin, none otherwise. -/
def Info.SpinsOK (i : Info Q n) : Prop := if i.spinZ then ∀ q, i.spin q = 1 ∨ i.spin q = -1 else ∀ q, i.spin q = 0

/-- The bisections solved exactly: electron number `N`; magnetization `M` if it is fixed, otherwise the field is the given one. -/
structure Search.OK (f : Search Q n) (i : Info Q n) (N M : ℝ) : Prop where
  number : ∀ eps, number i (f.findMu eps) eps = N
  magnetization : i.spinZ = true → i.Bz = none → ∀ eps, magnetization i (f.findMu eps) eps = M
  field : ∀ b, i.Bz = some b → ∀ eps, (f.findMu eps).2 = b

/-- The slope that the line minimiser takes from the gradient, at a given state and direction, is the derivative of the free energy along the step. -/
def SlopeCorrect (i : Info Q n) (l : Lapack n) (f : Search Q n) (p : Phys Q B) (s : Q → QState B n) (dir : Grad Q B n) : Prop :=
  ∃ s' : ℝ → Q → QState B n, (∀ α, step i l p s dir α = some (s' α)) ∧ HasDerivAt (fun α => freeEnergy i f p (s' α)) (dot (grad i f p s) dir) 0

/-- Successive steps along the same direction, as in a line search. -/
def steps (i : Info Q n) (l : Lapack n) (p : Phys Q B) (dir : Grad Q B n) : List ℝ → (Q → QState B n) → Option (Q → QState B n)
  | [], s => some s
  | α :: t, s => (step i l p s dir α).bind (steps i l p dir t)

/-- The auxiliary Hamiltonian of a state in the frame of the search directions. -/
def aux (s : Q → QState B n) (q : Q) : Mat n := (s q).rotPrev * diagonal (fun j => ((s q).eps j : ℂ)) * ((s q).rotPrev)ᴴ

/-- Projector on the space spanned by the wavefunctions. -/
def span (s : Q → QState B n) (q : Q) : Matrix B B ℂ := (s q).C * ((s q).C)ᴴ

end
end Jdftx.ElecMin
