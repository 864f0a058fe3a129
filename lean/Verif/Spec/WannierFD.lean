import Verif.Model.WannierFD

/-! # Specification for the finite-difference formula of Wannier calculations -/
namespace Jdftx.WanFD
noncomputable section
open M3

/-- Σ w b_x b_y. -/
def moment (b : List (V3 ℝ)) (w : List ℝ) (x y : Fin 3) : ℝ := ((b.zip w).map fun p => p.2 * (p.1 x * p.1 y)).sum

/-- The formula is exact for gradients, up to the threshold: Σ w b bᵀ is the unit matrix. -/
def Correct (tol : ℝ) (b : List (V3 ℝ)) (w : List ℝ) : Prop := ∀ x y : Fin 3, |moment b w x y - if x = y then 1 else 0| ≤ tol

/-- Lattice directions fall into blocks, those of different blocks orthogonal, those in the same block not, and each block spans the Cartesian directions of the same numbers. -/
structure Aligned (tol : ℝ) (K : M3.Mat ℝ) : Prop where
  refl : ∀ i, maskOf tol K i i = true
  trans : ∀ i j k, maskOf tol K i j = true → maskOf tol K j k = true → maskOf tol K i k = true
  cart : ∀ i j, maskOf tol K i j = false → K i j = 0

/-- A solver that finds a solution of the equations when there is one. -/
def Exact (solve : Solver) : Prop := ∀ L m n r, (∃ w : ℕ → ℝ, ∀ e < m, ∑ s ∈ Finset.range n, L e s * w s = r e) →
  ∀ e < m, ∑ s ∈ Finset.range n, (L e s : ℂ) * solve L m n r s = (r e : ℂ)

/-- Offsets are those of mesh points other than the origin, none is the opposite of another one, and there is one weight for each. -/
structure Neighbours (K : M3.Mat ℝ) (b : List (V3 ℝ)) (w : List ℝ) : Prop where
  mesh : ∀ v ∈ b, ∃ n : V3 Int, n ≠ 0 ∧ v = mulMV K fun i => (n i : ℝ)
  length : w.length = b.length
  opposite : b.Pairwise fun u v => u + v ≠ 0

end
end Jdftx.WanFD
