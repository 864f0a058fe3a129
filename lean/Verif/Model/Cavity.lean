import Verif.Model.Smear
import Mathlib.Analysis.SpecialFunctions.Pow.Real
import Mathlib.Analysis.SpecialFunctions.Trigonometric.Basic

/-!
# Model of the local cavity shape functions (jdftx/fluid/PCM_internal.h:93-102 and 213-239)

Exact real arithmetic with the mathematical functions. One grid point; the loops over grid points (PCM_internal.cpp:28-50 and 190-215) apply the
functions at each point independently.
-/
namespace Jdftx.Cavity
noncomputable section

/-! ### Shape function of the electron density -/

/-- PCM_internal.h:95-97 `compute_calc`. At density zero the logarithm is minus infinity in floating-point arithmetic, and `erfc` of it is 2. -/
def shape (nc sigma n : ℝ) : ℝ :=
  if n = 0 then 1 else Smear.erfc (Real.sqrt 0.5 * Real.log (|n| / nc) / sigma) * 0.5

/-- PCM_internal.h:98-101 `propagateGradient_calc`: new value of `grad_nCavity[i]`. At density zero the exponential is that of minus infinity. -/
def shapeGrad (nc sigma n gradShape gradN : ℝ) : ℝ :=
  gradN + (-1.0 / (nc * sigma * Real.sqrt (2 * Real.pi))) * gradShape *
    (if n = 0 then 0 else Real.exp (0.5 * (sigma ^ 2 - (Real.log (|n| / nc) / sigma + sigma) ^ 2)))

/-! ### SCCS shape function -/

/-- PCM_internal.h:215-224 `ShapeFunctionSCCS::compute_calc`. -/
def sccs (rhoMin rhoMax epsBulk rho : ℝ) : ℝ :=
  if rho ≥ rhoMax then 0
  else if rho ≤ rhoMin then 1
  else
    let logDen := Real.log (rhoMax / rhoMin)
    let f := Real.log (rhoMax / rho) / logDen
    let t := f - Real.sin (2 * Real.pi * f) / (2 * Real.pi)
    (epsBulk ^ t - 1) / (epsBulk - 1)

/-- PCM_internal.h:225-237 `ShapeFunctionSCCS::propagateGradient_calc`: new value of `grad_nCavity[i]`. -/
def sccsGrad (rhoMin rhoMax epsBulk rho gradShape gradN : ℝ) : ℝ :=
  if rho ≥ rhoMax then gradN
  else if rho ≤ rhoMin then gradN
  else
    let logDen := Real.log (rhoMax / rhoMin)
    let f := Real.log (rhoMax / rho) / logDen
    let f_rho := -1 / (rho * logDen)
    let t := f - Real.sin (2 * Real.pi * f) / (2 * Real.pi)
    let t_f := 1 - Real.cos (2 * Real.pi * f)
    let s_t := Real.log epsBulk * epsBulk ^ t / (epsBulk - 1)
    gradN + gradShape * s_t * t_f * f_rho

end
end Jdftx.Cavity
