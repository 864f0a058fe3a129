import Verif.Model.Mat3
import Verif.Model.Outcome
import Mathlib.Algebra.Order.Archimedean.Real.Basic
/-!
# Model of resampling with cubic splines (jdftx/core/Blip.cpp)

Reals are exact; coefficients are real (complex ones are treated in the same way, part by part). Wigner-Seitz cells are
parameters here and are modelled in `Verif.Model.WignerSeitz`. The conversion to coefficients (Fourier transforms) is modelled
for constant fields only.
-/
namespace Jdftx.Blip
open Jdftx.M3
noncomputable section
open Classical

/-- Blip.cpp:78-84 `blip`. -/
def blip (t : ℝ) (coeff : Fin 4 → ℝ) : ℝ :=
  1 / 4 * (coeff 0 + 4 * coeff 1 + coeff 2
    + t * (3 * (coeff 2 - coeff 0)
    + t * (3 * (coeff 0 + coeff 2 - 2 * coeff 1)
    + t * (coeff 3 - coeff 0 + 3 * (coeff 1 - coeff 2)))))

/-- Blip.cpp:33: `gamma[dir][0]`. -/
def gammaZero : ℝ := 2 / 3

/-- Blip.cpp:101-103: integer coordinate `ivIn[k]` in the input mesh. -/
def cellOf (S : ℤ) (x : ℝ) : ℤ := ⌊(x - ⌊x⌋) * S⌋

/-- Blip.cpp:101-104: fractional coordinate `t[k]`. -/
def fracOf (S : ℤ) (x : ℝ) : ℝ := (x - ⌊x⌋) * S - cellOf S x

/-- Blip.cpp:110-113: `j[k][di]`. -/
def index (S iv : ℤ) (di : Fin 4) : ℤ :=
  let jCur := iv + (di : ℕ) - 1
  let jCur := if jCur ≥ S then jCur - S else jCur
  if jCur < 0 then jCur + S else jCur

/-- Blip.cpp:120: position in the array. -/
def position (S : V3 ℤ) (j0 j1 j2 : ℤ) : ℤ := j2 + S 2 * (j1 + S 1 * j0)

/-- Blip.cpp:99-127: the interpolated value at `x`, in input lattice coordinates. Reading outside the array is undefined
behaviour. -/
def interpolate (S : V3 ℤ) (inBlip : ℤ → ℝ) (x : V3 ℝ) : Res ℝ :=
  let j : (k : Fin 3) → Fin 4 → ℤ := fun k => index (S k) (cellOf (S k) (x k))
  if ∀ d0 d1 d2, 0 ≤ position S (j 0 d0) (j 1 d1) (j 2 d2) ∧ position S (j 0 d0) (j 1 d1) (j 2 d2) < S 0 * S 1 * S 2 then
    .ok (blip (fracOf (S 0) (x 0)) fun d0 => blip (fracOf (S 1) (x 1)) fun d1 => blip (fracOf (S 2) (x 2)) fun d2 =>
      inBlip (position S (j 0 d0) (j 1 d1) (j 2 d2)))
  else .error .ub

/-- Blip.cpp:94-128: one point of the output, `x` in output lattice coordinates. -/
def resample (toIn : Mat ℝ) (reduceOut : V3 ℝ → V3 ℝ) (boundaryIn : V3 ℝ → ℝ) (S : V3 ℤ) (inBlip : ℤ → ℝ) (x : V3 ℝ) : Res ℝ :=
  let y := mulMV toIn (reduceOut x)
  if boundaryIn y = 0 then .ok 0 else interpolate S inBlip y

end
end Jdftx.Blip
