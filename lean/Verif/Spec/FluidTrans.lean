import Verif.Model.ExCorr
import Mathlib.Algebra.Order.Floor.Ring

/-!
# Specification of translations of periodic fields
-/
namespace Jdftx.Fluid
open Box ExCorr
noncomputable section

/-- The value of a field at any point with integer coordinates, by periodicity. -/
def per (S : Size) (x : Field) (a b c : Int) : ℝ := x (fullRindex S ⟨a % S.s0, b % S.s1, c % S.s2⟩).toNat

/-- Linear interpolation of a function on the integers. -/
def lerp (φ : Int → ℝ) (p : ℝ) : ℝ := (1 - Int.fract p) * φ ⌊p⌋ + Int.fract p * φ (⌊p⌋ + 1)

/-- Trilinear interpolation of a field at a point in units of grid spacings. -/
def trilinear (S : Size) (x : Field) (p q r : ℝ) : ℝ := lerp (fun a => lerp (fun b => lerp (fun c => per S x a b c) r) q) p

/-- The real plane wave with integer wave vector `m` and phase `θ`, at a point in units of grid spacings. -/
def wave (S : Size) (m : IV) (θ p q r : ℝ) : ℝ := Real.cos (2 * Real.pi * (m.x * p / S.s0 + m.y * q / S.s1 + m.z * r / S.s2) + θ)

end
end Jdftx.Fluid
