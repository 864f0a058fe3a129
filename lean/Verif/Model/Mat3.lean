import Mathlib.Algebra.Ring.Defs
import Mathlib.Data.Int.Cast.Defs
import Mathlib.Data.Fin.Basic

/-!
# Model of 3-vectors and 3x3 matrices (jdftx/core/vector3.h, jdftx/core/matrix3.h)

Scalars are elements of any commutative ring, so the definitions serve for `int` (without overflow) and for
`double` (without rounding).
-/
namespace Jdftx.M3

variable {K : Type}

/-- vector3.h:32-90 `vector3<scalar>`. -/
abbrev V3 (K : Type) := Fin 3 → K
/-- matrix3.h:31-165 `matrix3<scalar>`, `m i j` is `m(i,j)`. -/
abbrev Mat (K : Type) := Fin 3 → Fin 3 → K

section ring
variable [CommRing K]

/-- `vector3<scalar>(a,b,c)`. -/
def vec (a b c : K) : V3 K := fun i => match i with | 0 => a | 1 => b | 2 => c

/-- vector3.h:107 `dot`. -/
def dot (a b : V3 K) : K := a 0 * b 0 + a 1 * b 1 + a 2 * b 2

/-- vector3.h:118-123 `cross`. -/
def cross (a b : V3 K) : V3 K :=
  vec (a 1 * b 2 - a 2 * b 1) (a 2 * b 0 - a 0 * b 2) (a 0 * b 1 - a 1 * b 0)

/-- vector3.h:126-128 `box`. -/
def box (a b c : V3 K) : K := dot a (cross b c)

/-- matrix3.h:178-202 `operator*(matrix3, vector3)`: the accumulation loop of `MUL_MAT_VEC`. -/
def mulMV (m : Mat K) (v : V3 K) : V3 K := fun i => ((0 + m i 0 * v 0) + m i 1 * v 1) + m i 2 * v 2

/-- matrix3.h:204-228 `operator*(vector3, matrix3)`: the accumulation loop of `MUL_VEC_MAT`. -/
def mulVM (v : V3 K) (m : Mat K) : V3 K := fun j => ((0 + v 0 * m 0 j) + v 1 * m 1 j) + v 2 * m 2 j

/-- matrix3.h:230-249 `operator*(matrix3, matrix3)`: the accumulation loop of `MUL_MAT_MAT`. -/
def mulMM (m n : Mat K) : Mat K := fun i j => ((0 + m i 0 * n 0 j) + m i 1 * n 1 j) + m i 2 * n 2 j

/-- matrix3.h:115-121 `operator*(scalar)`. -/
def smul (s : K) (m : Mat K) : Mat K := fun i j => m i j * s

/-- matrix3.h:39 `row`. -/
def row (m : Mat K) (i : Fin 3) : V3 K := vec (m i 0) (m i 1) (m i 2)

/-- matrix3.h:40 `column`. -/
def column (m : Mat K) (j : Fin 3) : V3 K := vec (m 0 j) (m 1 j) (m 2 j)

/-- matrix3.h:47-49 `set_cols`. -/
def ofCols (v0 v1 v2 : V3 K) : Mat K := fun i j => match j with | 0 => v0 i | 1 => v1 i | 2 => v2 i

/-- matrix3.h:52-55 diagonal constructor. -/
def diag (a b c : K) : Mat K := fun i j => if i = j then vec a b c i else 0

/-- matrix3.h:135-141 `operator~`. -/
def transpose (m : Mat K) : Mat K := fun i j => m j i

/-- matrix3.h:257 `trace`. -/
def trace (m : Mat K) : K := m 0 0 + m 1 1 + m 2 2

/-- matrix3.h:258 `det`. -/
def det (m : Mat K) : K := box (row m 0) (row m 1) (row m 2)

/-- matrix3.h:259-263 `adjugate`. -/
def adjugate (m : Mat K) : Mat K :=
  ofCols (cross (row m 1) (row m 2)) (cross (row m 2) (row m 0)) (cross (row m 0) (row m 1))

/-- matrix3.h:124-129 `metric_length_squared`. -/
def metricLengthSq (m : Mat K) (v : V3 K) : K :=
  v 0 * v 0 * m 0 0 + v 1 * v 1 * m 1 1 + v 2 * v 2 * m 2 2
    + 2 * (v 0 * v 1 * m 0 1 + v 0 * v 2 * m 0 2 + v 1 * v 2 * m 1 2)

end ring

/-- Conversion `matrix3<scalar>(matrix3<int>)` (matrix3.h:71-75) and the mixed products of matrix3.h:187-192, 240-245. -/
def castMat [IntCast K] (m : Mat Int) : Mat K := fun i j => (m i j : K)

end Jdftx.M3
