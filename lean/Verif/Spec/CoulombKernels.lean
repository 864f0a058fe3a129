import Verif.Spec.Ewald
import Verif.Model.Smear
import Mathlib.Analysis.SpecialFunctions.Trigonometric.Basic
import Mathlib.MeasureTheory.Integral.IntervalIntegral.Basic
import Mathlib.Analysis.SpecialFunctions.Exp
import Mathlib.Analysis.Calculus.Deriv.Basic

/-!
# Specification for C91
-/
namespace Jdftx.CoulK
noncomputable section
open M3 Real

/-- `w` is the Cartesian wave vector with lattice components `v`: its product with each lattice vector is `2π` times the component. -/
def IsWave (R : Mat ℝ) (v w : V3 ℝ) : Prop := ∀ j, dot w (column R j) = 2 * π * v j

/-- The Fourier transform of a radial function cut off at a sphere, for a wave vector of length `k`: `t` is the cosine of the
angle between wave vector and position. -/
def ballFT (φ : ℝ → ℝ) (Rc k : ℝ) : ℝ := ∫ r in (0 : ℝ)..Rc, ∫ t in (-1 : ℝ)..1, 2 * π * r ^ 2 * φ r * cos (k * r * t)

/-- The potential at height `z` of a plane of charge with a wave of wave number `p` along the plane and unit amplitude. -/
def planePotential (p z : ℝ) : ℝ := if p = 0 then -2 * π * |z| else 2 * π / p * exp (-p * |z|)

/-- Its Fourier transform across a slab of thickness `2h`. -/
def slabFT (p q h : ℝ) : ℝ := ∫ z in (-h)..h, planePotential p z * cos (q * z)

/-- Cartesian length. -/
def len (v : V3 ℝ) : ℝ := sqrt (dot v v)

/-- Component of `w` along lattice vector `i`. -/
def along (R : Mat ℝ) (i : Fin 3) (w : V3 ℝ) : ℝ := dot w (column R i) / len (column R i)

/-- Part of `w` perpendicular to lattice vector `i`. -/
def across (R : Mat ℝ) (i : Fin 3) (w : V3 ℝ) : V3 ℝ := fun k => w k - along R i w * (column R i k / len (column R i))

/-- Lattice vector `i` is perpendicular to the others. -/
def Perp (R : Mat ℝ) (i : Fin 3) : Prop := ∀ j, j ≠ i → dot (column R i) (column R j) = 0

/-- The strain keeps lattice vector `i` perpendicular to the others, to first order. -/
def KeepsPerp (R e : Mat ℝ) (i : Fin 3) : Prop := ∀ j, j ≠ i → HasDerivAt (fun t => dot (column (Ewald.strained R e t) i) (column (Ewald.strained R e t) j)) 0 0

/-- `r` is half the length of the shortest lattice vector, the radius of the largest sphere in the Wigner-Seitz cell. -/
def InRadius (R : Mat ℝ) (r : ℝ) : Prop :=
  IsLeast {x | ∃ m : Fin 3 → Int, m ≠ 0 ∧ x = len (mulMV R fun k => (m k : ℝ))} (2 * r)

end
end Jdftx.CoulK
