import Verif.Model.Box
import Verif.Spec.WignerSeitz
import Mathlib.Data.Complex.BigOperators

/-!
# Specification for C69
-/
namespace Jdftx.Embed
open Jdftx.Box Jdftx.M3 Jdftx.WS

/-- Coordinates of the point with index `p` of the mesh `S` (last coordinate fastest). -/
def coord (S : Size) (p : Nat) : V3 Int := vec (p / (S.s2 * S.s1) : Nat) ((p / S.s2) % S.s1 : Nat) (p % S.s2 : Nat)

/-- Sample count along direction `k`. -/
def samples (S : Size) (k : Fin 3) : Int := vec S.s0 S.s1 S.s2 k

/-- Point `p` of the larger mesh `SE` is a periodic image of point `i` of the mesh `S`. -/
def ImageOf (S SE : Size) (p i : Nat) : Prop := ∀ k, samples S k ∣ coord SE p k - coord S i k

/-- Some vector of the original mesh at this point of the larger mesh (up to periods of the larger mesh) lies in the Wigner-Seitz
cell cut out by the planes half way to the lattice vectors `imgs`. -/
def InCell (R : Mat ℝ) (tol : ℝ) (imgs : List (V3 Int)) (S SE : Size) (p : Nat) : Prop :=
  ∃ v : V3 Int, (∀ k, samples SE k ∣ v k - coord SE p k) ∧ ∀ a ∈ imgs, Inside R tol (fun k => (v k : ℝ) / (samples S k : ℝ)) a

/-- Hermitian product of two fields on a mesh of `n` points. -/
noncomputable def hdot (n : Nat) (a b : Nat → ℂ) : ℂ := ∑ i ∈ Finset.range n, star (a i) * b i

end Jdftx.Embed
