import Verif.Model.VdwD2
import Verif.Spec.Ewald
import Verif.Spec.WignerSeitz

/-!
# Specification for C71
-/
namespace Jdftx.D2
noncomputable section
open M3

/-- Damped dispersion of two atoms, without the sign and the scale factor. -/
def dispersion (C6 R0 r : ℝ) : ℝ := C6 / r ^ 6 / (1 + Real.exp (-20 * (r / R0 - 1)))

/-- Attraction of the Lennard-Jones potential minus its repulsion, with the minimum of the potential at `R0`. -/
def lennardJones (C6 R0 r : ℝ) : ℝ := C6 / r ^ 6 - C6 * R0 ^ 6 / (2 * r ^ 12)

variable {n : Nat}

/-- Number of neighbouring cells on each side in a direction. -/
def reach (p : Params n) (k : Fin 3) : Nat := if p.trunc k then 0 else ⌈rCut p / Basis.length (column p.R k)⌉₊

/-- Distance between atom `a` in cell `v` and atom `b` in the home cell. -/
def distance (p : Params n) (pos : Fin n → V3 ℝ) (v : Fin 3 → Int) (a b : Fin n) : ℝ :=
  Real.sqrt (WS.lenSq p.R (fun k => (v k : ℝ) + (pos a k - pos b k)))

open Classical in
/-- The dispersion energy: every pair of atoms once (half of the sum over ordered pairs), images of the first atom in all
cells within reach, an atom with itself excluded. -/
def total (p : Params n) (pos : Fin n → V3 ℝ) : ℝ :=
  -(p.scale / 2) * ∑ a, ∑ b, ∑ v ∈ Fintype.piFinset fun k => Finset.Icc (-(reach p k : Int)) (reach p k),
    if distance p pos v a b = 0 then 0
    else pairE p.lj (Real.sqrt (p.C6 a * p.C6 b)) (p.R0 a + p.R0 b) (distance p pos v a b)

/-- No pair is at a distance at which the pair energy jumps or has a kink. -/
def OffThreshold (p : Params n) (pos : Fin n → V3 ℝ) : Prop := ∀ a b, ∀ v : Fin 3 → Int,
  (p.lj ≠ 0 → distance p pos v a b ≠ p.lj) ∧
  (p.lj = 0 → 0 < p.R0 a ∧ 0 < p.R0 b ∧ distance p pos v a b / (p.R0 a + p.R0 b) ≠ 0.3000002494598603)

end
end Jdftx.D2
