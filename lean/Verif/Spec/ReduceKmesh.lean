import Verif.Model.Mat3
import Verif.Spec.Kpoints
import Verif.Spec.PeriodicLookup

/-!
# Specification for C32
-/
namespace Jdftx.RK
open Jdftx.M3 Jdftx.Kpts

/-- The rotations form a group. -/
structure IsGroup (sym : List (Mat Int)) : Prop where
  one : diag 1 1 1 ∈ sym
  mul : ∀ a ∈ sym, ∀ b ∈ sym, mulMM a b ∈ sym
  inv : ∀ a ∈ sym, ∃ b ∈ sym, mulMM a b = diag 1 1 1

/-- `b` is the image of `a` under an allowed operation, up to a reciprocal lattice vector: a rotation of the group acting on row
vectors, with a change of sign if inversion is allowed. -/
def Related (useInv : Bool) (sym : List (Mat Int)) (a b : V3 ℝ) : Prop :=
  ∃ σ : ℝ, (σ = 1 ∨ (useInv = true ∧ σ = -1)) ∧ ∃ rot ∈ sym, EquivK b (fun c => σ * mulVM a (castMat rot) c)

/-- Coincidence within the tolerance is decisive for this mesh: images of mesh points under allowed operations coincide with
mesh points only if they are equivalent, and no two points of the list coincide. -/
structure Decisive (thr : ℝ) (useInv : Bool) (sym : List (Mat Int)) (ks : List (V3 ℝ)) : Prop where
  exact : ∀ a ∈ ks, ∀ b ∈ ks, ∀ σ : ℝ, (σ = 1 ∨ (useInv = true ∧ σ = -1)) → ∀ rot ∈ sym,
    PL.Coincide thr (fun c => σ * mulVM a (castMat rot) c) b → EquivK b (fun c => σ * mulVM a (castMat rot) c)
  distinct : ks.Pairwise fun a b => ¬EquivK a b

end Jdftx.RK
