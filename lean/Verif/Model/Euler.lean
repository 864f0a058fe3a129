import Verif.Model.Mat3
import Mathlib.Analysis.SpecialFunctions.Complex.Arg
import Mathlib.Analysis.SpecialFunctions.Trigonometric.Inverse
import Mathlib.LinearAlgebra.Matrix.Notation
import Mathlib.LinearAlgebra.Matrix.ConjTranspose

/-!
# Model of Euler angles and spinor rotations (jdftx/fluid/Euler.h, jdftx/core/matrix3.h, jdftx/electronic/Symmetries.cpp)

Angles and matrix entries are exact real numbers.
-/
noncomputable section
namespace Jdftx.Euler
open M3

/-- `rotation(theta, axis)` (jdftx/core/matrix3.h:271-290). -/
def rotation (theta : ℝ) (axis : Nat) : Mat ℝ :=
  let s := Real.sin theta
  let c := Real.cos theta
  match axis with
  | 0 => vec (vec 1 0 0) (vec 0 c s) (vec 0 (-s) c)
  | 1 => vec (vec c 0 (-s)) (vec 0 1 0) (vec s 0 c)
  | _ => vec (vec c s 0) (vec (-s) c 0) (vec 0 0 1)

/-- `atan2(y, x)` of the C library: the angle of the point `(x, y)` in `(-π, π]`. -/
def atan2 (y x : ℝ) : ℝ := Complex.arg ⟨x, y⟩

/-- `matrixFromEuler` (jdftx/fluid/Euler.h:56-60). -/
def matrixFromEuler (e : V3 ℝ) : Mat ℝ := mulMM (mulMM (rotation (e 0) 2) (rotation (e 1) 1)) (rotation (e 2) 2)

/-- `eulerFromMatrix` (jdftx/fluid/Euler.h:63-73). -/
def eulerFromMatrix (m : Mat ℝ) : V3 ℝ :=
  if |m 2 2| > 1 - 1e-7 then
    vec 0 (if m 2 2 > 0 then 0 else Real.pi) (atan2 (-(m 1 0)) (m 1 1))
  else
    vec (atan2 (m 1 2) (-(m 0 2))) (Real.arccos (m 2 2)) (atan2 (m 2 1) (m 2 0))

/-- `polarUnitVector` (jdftx/fluid/Euler.h:38-41). -/
def polarUnitVector (alpha beta : ℝ) : V3 ℝ := vec (Real.sin beta * Real.cos alpha) (Real.sin beta * Real.sin alpha) (Real.cos beta)

/-- `getEulerAxis` (jdftx/fluid/Euler.h:44-53): the angles alpha and beta of a direction; `length` is the square root of the squared length. -/
def getEulerAxis (newZ : V3 ℝ) : ℝ × ℝ :=
  let e1 := Real.arccos (newZ 2 / Real.sqrt (dot newZ newZ))
  if e1 * (Real.pi - e1) < 1e-6 then (0, e1) else (atan2 (newZ 1) (newZ 0), e1)

/-- 2x2 complex matrices, as used for spinors. -/
abbrev M2 := Matrix (Fin 2) (Fin 2) ℂ

/-- `cis(x)` (jdftx/core/scalar.h): `(cos x, sin x)`. -/
def cis (x : ℝ) : ℂ := ⟨Real.cos x, Real.sin x⟩

/-- `Symmetries::getSpinorRotation` from the Euler angles on (jdftx/electronic/Symmetries.cpp:358-372). -/
def spinorFromEuler (e : V3 ℝ) : M2 :=
  let cA := cis (0.5 * e 0)
  let cB := cis (0.5 * e 1)
  let cG := cis (0.5 * e 2)
  let A : M2 := !![cA, 0; 0, star cA]
  let B : M2 := !![(cB.re : ℂ), (cB.im : ℂ); -(cB.im : ℂ), (cB.re : ℂ)]
  let G : M2 := !![cG, 0; 0, star cG]
  A * B * G

/-- `Symmetries::getSpinorRotation` (jdftx/electronic/Symmetries.cpp:355-373). -/
def getSpinorRotation (rot : Mat ℝ) : M2 := spinorFromEuler (eulerFromMatrix (smul (1 / det rot) rot))

/-- Spinor part of the transformation of wavefunctions (jdftx/electronic/ColumnBundleTransform.cpp:75-85), for `nSpinor = 2`; `rot` is the
rotation in Cartesian coordinates, of which the code passes the transpose. -/
def spinorRot (rot : Mat ℝ) (invert : Int) : M2 :=
  let U := getSpinorRotation (transpose rot)
  if invert < 0 then
    let sInvert : M2 := !![0, 1; -1, 0]
    (sInvert * U).map star
  else U

end Jdftx.Euler
