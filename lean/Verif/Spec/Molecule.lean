import Verif.Model.Molecule
/-!
# Specification of charge, dipole and bonds of a molecule
-/
namespace Jdftx.Mole
open Jdftx.M3

/-- All atoms of the molecule that are hard spheres: radius and position. -/
noncomputable def spheres (sites : List Site) : List (ℝ × V3 ℝ) :=
  open Classical in (sites.flatMap fun s => s.positions.map fun p => (s.Rhs, p)).filter fun a => a.1 ≠ 0

/-- Number of pairs at places `i < j` of the list that satisfy `p`. -/
noncomputable def countPairs {A : Type} (p : A → A → Prop) : List A → ℕ
  | [] => 0
  | a :: l => (open Classical in l.countP fun b => p a b) + countPairs p l

/-- Two spheres touch, to a relative precision of one millionth of the sum of their radii, and have this reduced radius. -/
def Bond (key : ℝ) (a b : ℝ × V3 ℝ) : Prop :=
  |a.1 + b.1 - Real.sqrt (dot (fun d => a.2 d - b.2 d) (fun d => a.2 d - b.2 d))| < 1 / 10 ^ 6 * (a.1 + b.1) ∧
  a.1 * b.1 / (a.1 + b.1) = key

/-- Sum of the charges of all atoms. -/
noncomputable def netCharge (sites : List Site) : ℝ := (sites.map fun s => s.charge * (s.positions.length : ℝ)).sum

/-- Dipole moment of all atoms. -/
noncomputable def moment (sites : List Site) : V3 ℝ :=
  fun d => (sites.map fun s => s.charge * (s.positions.map fun r => r d).sum).sum

/-- The molecule displaced by `t`. -/
def moved (t : V3 ℝ) (sites : List Site) : List Site :=
  sites.map fun s => { s with positions := s.positions.map fun r d => r d + t d }

end Jdftx.Mole
