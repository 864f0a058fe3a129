import Verif.Spec.MatFunc
import Verif.Model.Wannier

/-! # Specification for the spread of Wannier functions -/
namespace Jdftx.Wan
noncomputable section
open M3 Finset
open scoped ComplexConjugate
open MatFunc (Diag DiagOK)

variable (s : Sys)

/-- Columns `< m` of a matrix with `n` rows are orthonormal. -/
def Isometry (n m : ℕ) (A : CM) : Prop := ∀ a < m, ∀ c < m, mul n (dag A) A a c = if a = c then 1 else 0

/-- Sizes make sense: frozen centers are among the bands kept in full, which are no more than the centers, which are no more than the bands at hand; neighbours are on the mesh. -/
structure Shape : Prop where
  frozen : ∀ i < s.nk, s.nFrozen ≤ (s.k i).nFixed
  fixed : ∀ i < s.nk, (s.k i).nFixed ≤ s.nCenters
  centers : ∀ i < s.nk, s.nCenters ≤ (s.k i).nIn
  nbr : ∀ i < s.nk, ∀ j < s.nEdge, s.nbr i j < s.nk

/-- State of the rotations kept by the minimizer: U is the product, U2 is a unitary rotation that only mixes centers that are not frozen. -/
structure Rot : Prop where
  prod : ∀ i < s.nk, (s.k i).U = mul (s.k i).nIn (s.k i).U1 (s.k i).U2
  unitary : ∀ i < s.nk, Isometry (s.k i).nIn (s.k i).nIn (s.k i).U2
  block : ∀ i < s.nk, ∀ a < (s.k i).nIn, ∀ c < (s.k i).nIn, ¬ (s.nFrozen ≤ a ∧ a < s.nCenters ∧ s.nFrozen ≤ c ∧ c < s.nCenters) →
    (s.k i).U2 a c = if a = c then 1 else 0

/-- Directions of search: second parts are Hermitian (`constrain`). -/
def Dir (g : Grad) : Prop := ∀ l < s.nk, ∀ a < s.nCenters - s.nFrozen, ∀ c < s.nCenters - s.nFrozen, g.B2 l c a = conj (g.B2 l a c)

/-- The finite-difference formula is exact: weights of k-points sum to one, and Σ wb b bᵀ is the unit matrix. -/
structure Formula : Prop where
  weights : ∑ i ∈ range s.nk, (s.k i).weight = 1
  exact : ∀ x y : Fin 3, ∑ j ∈ range s.nEdge, s.wb j * s.b j x * s.b j y = if x = y then 1 else 0

/-- Weights are not negative. -/
structure NonNeg : Prop where
  weight : ∀ i < s.nk, 0 ≤ (s.k i).weight
  wb : ∀ j < s.nEdge, 0 ≤ s.wb j

/-- Overlaps between orthonormal sets of bands: no vector gets longer. -/
def Contraction (n : ℕ) (A : CM) : Prop := ∀ v : ℕ → ℂ, ∑ a ∈ range n, Complex.normSq (∑ c ∈ range n, A a c * v c) ≤ ∑ c ∈ range n, Complex.normSq (v c)

/-- Spread of center `n` about its own position, from the stored results. -/
def spread (n : ℕ) : ℝ := rSqExpect s n - CellMap.lenSq (rExpect s n)

/-- The minimizer with other rotations of bands into centers. -/
def withU (U : ℕ → CM) : Sys := { s with k := fun l => { s.k l with U := U l } }

/-- The minimizer with other origins. -/
def withOrigin (p : ℕ → V3 ℝ) : Sys := { s with rPinned := p }

/-- Spread that depends on the position of centers at each k-point (diagonal part of the gauge-dependent spread). -/
def OmegaD : ℝ := ∑ n ∈ range s.nCenters, ∑ i ∈ range s.nk, ∑ j ∈ range s.nEdge,
  (s.k i).weight * s.wb j * ((Mnn s i j n).arg + dot (r0 s n) (s.b j)) ^ 2

/-- Overlaps between different centers (off-diagonal part of the gauge-dependent spread). -/
def OmegaOD : ℝ := ∑ i ∈ range s.nk, ∑ j ∈ range s.nEdge, (s.k i).weight * s.wb j *
  ∑ a ∈ range s.nCenters, ∑ c ∈ (range s.nCenters).filter (· ≠ a), Complex.normSq (Mat s i j a c)

end
end Jdftx.Wan
