import Mathlib.Analysis.SpecialFunctions.Trigonometric.Basic
import Mathlib.Algebra.Polynomial.Derivative
import Mathlib.Data.Complex.Basic

/-!
# Specification for C88: spherical harmonics and spherical Bessel functions
-/
namespace Jdftx.Ylm
noncomputable section
open Polynomial

/-- Legendre polynomials, by Bonnet's recurrence `(l+2) P_(l+2) = (2l+3) z P_(l+1) - (l+1) P_l`. -/
def legendre : Nat → ℝ[X]
  | 0 => 1
  | 1 => X
  | l + 2 => C ((2 * (l : ℝ) + 3) / ((l : ℝ) + 2)) * (X * legendre (l + 1)) - C (((l : ℝ) + 1) / ((l : ℝ) + 2)) * legendre l

/-- Real spherical harmonics at the unit vector `(x, y, z)`: the associated Legendre function of order `k = |m|`, without the
Condon-Shortley phase, times `cos(k phi)` for `m > 0` and `sin(k phi)` for `m < 0`; `(x + i y)^k = sin(theta)^k exp(i k phi)`. -/
def realY (l : Nat) (m : ℤ) (x y z : ℝ) : ℝ :=
  let k := m.natAbs
  let P := (derivative^[k] (legendre l)).eval z
  let w := ((⟨x, y⟩ : ℂ)) ^ k
  if m = 0 then Real.sqrt ((2 * (l : ℝ) + 1) / (4 * Real.pi)) * P
  else Real.sqrt ((2 * (l : ℝ) + 1) / (2 * Real.pi) * ((l - k).factorial / (l + k).factorial)) * P * (if m > 0 then w.re else w.im)

/-- Spherical Bessel functions away from zero. -/
def sphericalBessel : Nat → ℝ → ℝ
  | 0, x => Real.sin x / x
  | 1, x => Real.sin x / x ^ 2 - Real.cos x / x
  | l + 2, x => (2 * (l : ℝ) + 3) / x * sphericalBessel (l + 1) x - sphericalBessel l x

/-- `1 · 3 · 5 · ... · (2l+1)`. -/
def oddFactorial : Nat → ℝ
  | 0 => 1
  | l + 1 => (2 * (l : ℝ) + 3) * oddFactorial l

end
end Jdftx.Ylm
