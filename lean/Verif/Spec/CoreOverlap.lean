import Verif.Model.CoreOverlap
/-!
# Specification of atoms that do not overlap
-/
namespace Jdftx.Core
open Jdftx.M3

/-- Atom `n` of species `i` is at `x` and has radius `r`. -/
def Atom (sps : List Species) (i n : ℕ) (x : V3 ℝ) (r : ℝ) : Prop :=
  ∃ sp, sps[i]? = some sp ∧ sp.coreRadius = r ∧ sp.atpos[n]? = some x

/-- Cartesian length of a vector in lattice coordinates. -/
noncomputable def len (R : Mat ℝ) (v : V3 ℝ) : ℝ := Real.sqrt (dot (mulMV R v) (mulMV R v))

/-- Atoms with these radii at distance `d` are neither on top of each other nor have overlapping cores. -/
def Apart (cond : Cond) (r r1 d : ℝ) : Prop :=
  1 / 10 ^ 10 ≤ d ∧ (cond = .additive → r + r1 ≤ d) ∧ (cond = .vector → Real.sqrt (r ^ 2 + r1 ^ 2) ≤ d)

/-- The lattice vectors are at right angles. -/
def Orthogonal (R : Mat ℝ) : Prop := ∀ c d, c ≠ d → R 0 c * R 0 d + R 1 c * R 1 d + R 2 c * R 2 d = 0

end Jdftx.Core
