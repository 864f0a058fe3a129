import Verif.Spec.WignerSeitz
import Mathlib.Algebra.BigOperators.Group.Finset.Basic
/-!
# Specification of dipole moments
-/
namespace Jdftx.Moment
open Jdftx.M3
open scoped BigOperators

/-- Sum over the points of the mesh. -/
noncomputable def meshSum (S : Fin 3 → ℕ) (f : V3 Int → ℝ) : ℝ :=
  ∑ i ∈ Finset.range (S 0), ∑ j ∈ Finset.range (S 1), ∑ k ∈ Finset.range (S 2), f (vec (i : Int) j k)

/-- Sum over all atoms, with the charge of their species. -/
noncomputable def atomSum (species : List (ℝ × List (V3 ℝ))) (f : V3 ℝ → ℝ) : ℝ :=
  (species.map fun sp => sp.1 * (sp.2.map f).sum).sum

/-- `data` are the values of `rho` on the mesh, last direction fastest. -/
def Holds (S : Fin 3 → ℕ) (data : ℕ → ℝ) (rho : V3 Int → ℝ) : Prop :=
  ∀ i < S 0, ∀ j < S 1, ∀ k < S 2, data ((i * S 1 + j) * S 2 + k) = rho (vec (i : Int) j k)

/-- The values repeat in all directions. -/
def Repeats (S : Fin 3 → ℕ) (rho : V3 Int → ℝ) : Prop :=
  ∀ n iv : V3 Int, rho (fun d => iv d + n d * S d) = rho iv

/-- Number of electrons less the charge of the ions. -/
noncomputable def charge (S : Fin 3 → ℕ) (dV : ℝ) (rho : V3 Int → ℝ) (species : List (ℝ × List (V3 ℝ))) : ℝ :=
  meshSum S rho * dV - atomSum species fun _ => 1

end Jdftx.Moment
