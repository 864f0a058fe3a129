import Verif.Model.GLLBsc
import Verif.Spec.ElecMin

/-! # Specification for the GLLB-sc potential -/
namespace Jdftx.GLLB
open Matrix Jdftx.ElecMin
noncomputable section

variable {G : Type} [Fintype G] {nb : ℕ}

/-- The bands of one spin, in all processes. -/
def Band (procs : List (List (QState G nb))) (s : Fin 2) (q : QState G nb) (_ : Fin nb) : Prop := (∃ P ∈ procs, q ∈ P) ∧ q.spin = s

/-- Energies of the bands of a spin that are at least half filled. -/
def occupied (procs : List (List (QState G nb))) (s : Fin 2) : Set ℝ := {e | ∃ q b, Band procs s q b ∧ 1 / 2 ≤ q.F b ∧ e = q.eig b}
/-- Energies of the bands of a spin that are at most half filled. -/
def empty (procs : List (List (QState G nb))) (s : Fin 2) : Set ℝ := {e | ∃ q b, Band procs s q b ∧ q.F b ≤ 1 / 2 ∧ e = q.eig b}

/-- All energies shifted by a constant. -/
def QState.shift (c : ℝ) (q : QState G nb) : QState G nb := { q with eig := fun b => q.eig b + c }

/-- Positive weights, densities and fillings that are not negative, fillings at most one. -/
structure QState.OK (q : QState G nb) : Prop where
  weight : 0 < q.weight
  F0 : ∀ b, 0 ≤ q.F b
  F1 : ∀ b, q.F b ≤ 1
  rho : ∀ b r, 0 ≤ q.rho b r

/-- The density of the bands. -/
def density (procs : List (List (QState G nb))) (s : Fin 2) (r : G) : ℝ := (procs.flatten.map fun q => if q.spin = s then q.weight * ∑ b, q.F b * q.rho b r else 0).sum

/-- The constant of the exchange response of the uniform electron gas. -/
def K : ℝ := 8 * Real.sqrt 2 / (3 * Real.pi ^ 2)

/-- The term of one band: distance of its energy to the upper edge of occupied bands, or the difference between distances to both edges. -/
def term (width : ℝ) (eH : ℝ) (eL : Option ℝ) (e : ℝ) : ℝ := match eL with
  | none => smoothedSqrt (eH - e) width
  | some l => smoothedSqrt (l - e) width - smoothedSqrt (eH - e) width

/-- An insulator: energies ascending, each band filled or empty, filled bands first. -/
def QState.Insulator (q : QState G nb) : Prop := Monotone q.eig ∧ ∃ nOcc, ∀ b : Fin nb, q.F b = if b.val < nOcc then 1 else 0

/-- LAPACK returns eigenvalues in ascending order. -/
structure SortedLapack (l : Lapack nb) : Prop where
  ok : l.OK
  sorted : ∀ A, A.IsHermitian → Monotone (l.eig A).2

end
end Jdftx.GLLB
