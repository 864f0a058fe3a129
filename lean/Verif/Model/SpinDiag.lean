import Verif.Model.LDA
import Mathlib.Algebra.BigOperators.Fin

/-!
# Model of the local spin-diagonal basis for noncollinear magnetism (jdftx/electronic/ExCorr_internal.h:84-125)

Exact real arithmetic, one grid point at a time (ExCorr.cpp:54-59 runs these bodies in a threadedLoop, see C02). A spin
density matrix is stored as four real numbers: up-up, down-down and the real and imaginary parts of up-down
(ColumnBundleOperators.cpp:527-534).
-/
namespace Jdftx.SpinDiag
noncomputable section

abbrev Spin4 := Fin 4 → ℝ
abbrev Vec3 := Fin 3 → ℝ

/-- ExCorr_internal.h:84-87 `loadSpinVector`: the scalar part. -/
def scalarPart (x : Spin4) : ℝ := x 0 + x 1

/-- ExCorr_internal.h:84-87 `loadSpinVector`: the vector part. -/
def vectorPart (x : Spin4) : Vec3 := ![2 * x 2, -2 * x 3, x 0 - x 1]

/-- ExCorr_internal.h:88-93 `accumSpinVectorGrad`: the array after accumulation. -/
def accum (E_x0 : ℝ) (E_xVec : Vec3) (E_x : Spin4) : Spin4 :=
  ![E_x 0 + (E_x0 + E_xVec 2), E_x 1 + (E_x0 - E_xVec 2), E_x 2 + 2 * E_xVec 0, E_x 3 - 2 * E_xVec 1]

/-- vector3.h `dot`. -/
def dot (a b : Vec3) : ℝ := a 0 * b 0 + a 1 * b 1 + a 2 * b 2

/-- ExCorr_internal.h:99, 114: `mNormFac`. -/
def normFac (n : Spin4) : ℝ := 1 / Real.sqrt (dot (vectorPart n) (vectorPart n) + LDA.nCutoff)

/-- ExCorr_internal.h:100, 115: `mHat`. -/
def mHat (n : Spin4) : Vec3 := fun k => vectorPart n k * normFac n

/-- ExCorr_internal.h:96-107 `spinDiagonalize_calc`. -/
def diagonalize (n x : Spin4) : Fin 2 → ℝ :=
  let xdotmHat := dot (vectorPart x) (mHat n)
  ![0.5 * (scalarPart x + xdotmHat), 0.5 * (scalarPart x - xdotmHat)]

/-- ExCorr_internal.h:110-125 `spinDiagonalizeGrad_calc`: what is passed to the accumulation into `E_n`. -/
def gradN (n x : Spin4) (E_xDiag : Fin 2 → ℝ) : Vec3 :=
  let E_xdotmHat := 0.5 * (E_xDiag 0 - E_xDiag 1)
  fun k => (E_xdotmHat * normFac n) * (vectorPart x k - dot (vectorPart x) (mHat n) * mHat n k)

/-- ExCorr_internal.h:110-125 `spinDiagonalizeGrad_calc` with different arrays `E_n` and `E_x`: both after the call. -/
def diagonalizeGrad (n x : Spin4) (E_xDiag : Fin 2 → ℝ) (E_n E_x : Spin4) : Spin4 × Spin4 :=
  let E_x0 := 0.5 * (E_xDiag 0 + E_xDiag 1)
  let E_xdotmHat := 0.5 * (E_xDiag 0 - E_xDiag 1)
  let E_xVec : Vec3 := fun k => E_xdotmHat * mHat n k
  (accum 0 (gradN n x E_xDiag) E_n, accum E_x0 E_xVec E_x)

/-- The same function called with `x = n` and one array for both gradients, as in ExCorr.cpp:835: the two accumulations act
on that array one after the other. -/
def diagonalizeGradSelf (n : Spin4) (E_nDiag : Fin 2 → ℝ) (E_n : Spin4) : Spin4 :=
  let E_x0 := 0.5 * (E_nDiag 0 + E_nDiag 1)
  let E_xdotmHat := 0.5 * (E_nDiag 0 - E_nDiag 1)
  let E_xVec : Vec3 := fun k => E_xdotmHat * mHat n k
  accum E_x0 E_xVec (accum 0 (gradN n n E_nDiag) E_n)

end
end Jdftx.SpinDiag
