import Verif.Spec.GGA
import Verif.Model.Smear
import Mathlib.MeasureTheory.Integral.Bochner.Set

/-!
# Specification for C87: the screened functional of Heyd, Scuseria and Ernzerhof

The exchange hole at the distance `u` from an electron is `n J(s, y)` with `y = kF u` and the reduced gradient `s`. The energy is the integral of
the hole with the screened Coulomb interaction `erfc(omega u)/u`. Equation numbers are those of J. Chem. Phys. 118, 8207 (2003).
-/
namespace Jdftx.GGA
noncomputable section
open MeasureTheory

/-- Parameters of the hole of Ernzerhof and Perdew 1998. -/
def pA : ℝ := 1.0161144
def pB : ℝ := -0.37170836
def pC : ℝ := -0.077215461
def pD : ℝ := 0.57786348

open Classical in
/-- The reduced gradient is kept below 8.572844. -/
def limited (s : ℝ) : ℝ :=
  if s > 15 then 8.572844 else if s > 1 then s - Real.log (1 + Real.exp (s - 8.572844)) else s

/-- `s² H(s)`, equation A5. -/
def holeDecay (s : ℝ) : ℝ :=
  s ^ 2 * ((0.00979681 * s ^ 2 + 0.0410834 * s ^ 4) / (1 + 0.187440 * s ^ 4 + 0.00120824 * s ^ 5 + 0.0347188 * s ^ 6))

/-- `C (1 + s² F(s))`, equation 25. -/
def holeFour (s : ℝ) : ℝ := pC - holeDecay s / 2 - s ^ 2 / 27

/-- `E (1 + s² G(s))` as published, equations A1 to A3, for decay `h` and coefficient `f`. -/
def publishedG (h f : ℝ) : ℝ :=
  -(2 / 5) * f * (pD + h) - 4 / 15 * pB * (pD + h) ^ 2 - 8 / 15 * pA * (pD + h) ^ 3
    + 4 / 5 * Real.sqrt Real.pi * (pD + h) ^ (7 / 2 : ℝ) * (Real.sqrt pA * Real.exp (9 * h / (4 * pA)) * Smear.erfc (Real.sqrt (9 * h / (4 * pA))) - 1)

/-- The code's version of it: half the first term, and the opposite sign of the last one. -/
def usedG (h f : ℝ) : ℝ :=
  -(1 / 5) * f * (pD + h) - 4 / 15 * pB * (pD + h) ^ 2 - 8 / 15 * pA * (pD + h) ^ 3
    - 4 / 5 * Real.sqrt Real.pi * (pD + h) ^ (7 / 2 : ℝ) * (Real.sqrt pA * Real.exp (9 * h / (4 * pA)) * Smear.erfc (Real.sqrt (9 * h / (4 * pA))) - 1)

/-- `y² J(0, y)`: the hole of a uniform gas, with the coefficient `g` of its last term. -/
def uniformHole (g y : ℝ) : ℝ :=
  -pA / (1 + 4 / 9 * pA * y ^ 2) + (pA + pB * y ^ 2 + pC * y ^ 4 + g * y ^ 6) * Real.exp (-pD * y ^ 2)

/-- `y J(s, y)`, with the two terms that are singular at `y = 0` replaced by the five fitted Gaussians. -/
def fittedHole (h f g y : ℝ) : ℝ :=
  (-0.000205484 * y * Real.exp (-0.006601306 * y ^ 2) - 0.109465240 * y * Real.exp (-0.259931140 * y ^ 2)
    - 0.064078780 * y ^ 2 * Real.exp (-0.520352224 * y ^ 2) - 0.008181735 * y ^ 2 * Real.exp (-0.118551043 * y ^ 2)
    - 0.000110666 * y ^ 3 * Real.exp (-0.046003777 * y ^ 2)
    + (pB * y + f * y ^ 3 + g * y ^ 5) * Real.exp (-pD * y ^ 2)) * Real.exp (-h * y ^ 2)

/-- Energy per volume with screening `omega` and the function `G` for the last coefficient. -/
def screened (G : ℝ → ℝ → ℝ) (omega n sigma : ℝ) : ℝ :=
  let s := limited (Real.sqrt (sSquared n sigma))
  let h := holeDecay s
  let f := holeFour s
  LDA.diracExchange n * (-(8 / 9) * ∫ y in Set.Ioi (0 : ℝ), fittedHole h f (G h f) y * Smear.erfc (omega / kF n * y))

end
end Jdftx.GGA
