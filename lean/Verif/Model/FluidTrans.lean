import Verif.Model.ExCorr
import Mathlib.Algebra.Order.Floor.Ring

/-!
# Model of the translation operators (jdftx/fluid/TranslationOperator.cpp, TranslationOperator_internal.h)

Exact real arithmetic. A translation vector `t` is given by its lattice coordinates `f = inv(R)*t`; `gInfo.G = 2*pi*inv(R)`.
Each operator adds `alpha` times the translated field to `y`; the model gives the translated field (`alpha = 1`, `y = 0`). The loops over grid points are
`THREAD_rLoop` and `THREAD_halfGspaceLoop` (C20); each iteration writes its own element.
-/
namespace Jdftx.Fluid
open Box ExCorr
noncomputable section

/-- TranslationOperator.cpp:57: translation in units of grid points, inverted because the operators gather. -/
def gridT (s : Nat) (f : ℝ) : ℝ := s * (-f)

/-- Line 65: `copysign(floor(fabs(x)+0.5), x)`. -/
def roundSym (x : ℝ) : Int := if x < 0 then -⌊|x| + 0.5⌋ else ⌊|x| + 0.5⌋

/-- Lines 67-68: `a % s`, made non-negative. -/
def wrapC (a : Int) (s : Nat) : Int := let r := Int.tmod a s; if r < 0 then r + s else r

/-- The library function `fmod`: the quotient is rounded towards zero. -/
def fmodR (x s : ℝ) : ℝ := x - s * (if x / s < 0 then ⌈x / s⌉ else ⌊x / s⌋ : Int)

/-- Lines 81-82: reduce to the first cell. -/
def reduceL (x : ℝ) (s : Nat) : ℝ := let r := fmodR x s; if r < 0 then r + s else r

/-- Lines 84, 86: the integral part. -/
def intL (x : ℝ) (s : Nat) : Int := Int.tmod ⌊reduceL x s⌋ s

/-- Line 85: the fractional part. -/
def fracL (x : ℝ) (s : Nat) : ℝ := reduceL x s - ⌊reduceL x s⌋

/-- TranslationOperator_internal.h:28-33 `wrappedIndex`. -/
def wrappedIndex (S : Size) (i : IV) : Int :=
  let w : IV := ⟨if i.x ≥ S.s0 then i.x - S.s0 else i.x, if i.y ≥ S.s1 then i.y - S.s1 else i.y, if i.z ≥ S.s2 then i.z - S.s2 else i.z⟩
  w.z + S.s2 * (w.y + S.s1 * w.x)

/-- TranslationOperator.cpp:62-76, TranslationOperator_internal.h:35-40 `constantSplineTaxpy`. -/
def constTrans (S : Size) (f : Fin 3 → ℝ) (x : Field) : Field := fun j =>
  let iy := rStart S j
  x (wrappedIndex S ⟨iy.x + wrapC (roundSym (gridT S.s0 (f 0))) S.s0, iy.y + wrapC (roundSym (gridT S.s1 (f 1))) S.s1,
    iy.z + wrapC (roundSym (gridT S.s2 (f 2))) S.s2⟩).toNat

/-- TranslationOperator_internal.h:50-66: the three nested loops over the corners of a grid cell. -/
def interpLoop (w0 w1 w2 : ℝ) (v : Int → Int → Int → ℝ) : ℝ :=
  (1 - w0) * ((1 - w1) * ((1 - w2) * v 0 0 0 + w2 * v 0 0 1) + w1 * ((1 - w2) * v 0 1 0 + w2 * v 0 1 1))
    + w0 * ((1 - w1) * ((1 - w2) * v 1 0 0 + w2 * v 1 0 1) + w1 * ((1 - w2) * v 1 1 0 + w2 * v 1 1 1))

/-- TranslationOperator.cpp:78-94, TranslationOperator_internal.h:42-67 `linearSplineTaxpy`. -/
def linTrans (S : Size) (f : Fin 3 → ℝ) (x : Field) : Field := fun j =>
  let iy := rStart S j
  interpLoop (fracL (gridT S.s0 (f 0)) S.s0) (fracL (gridT S.s1 (f 1)) S.s1) (fracL (gridT S.s2 (f 2)) S.s2) fun i0 i1 i2 =>
    x (wrappedIndex S ⟨iy.x + intL (gridT S.s0 (f 0)) S.s0 + i0, iy.y + intL (gridT S.s1 (f 1)) S.s1 + i1, iy.z + intL (gridT S.s2 (f 2)) S.s2 + i2⟩).toNat

/-- TranslationOperator.cpp:98-111, TranslationOperator_internal.h:69-71 `fourierTranslate`; `cis(x) = exp(i x)`. -/
def fourTrans (S : Size) (f : Fin 3 → ℝ) (x : Field) : Field :=
  fftI S fun i =>
    let iG := hStart S i.toNat
    fftJ S x i * Complex.exp (-(iG.x * (2 * Real.pi * f 0) + iG.y * (2 * Real.pi * f 1) + iG.z * (2 * Real.pi * f 2) : ℝ) * Complex.I)

/-- TranslationOperator.h:32-62: the operators. -/
inductive TransOp
  | constant
  | linear
  | fourier

/-- `TranslationOperator::taxpy`. -/
def TransOp.run (o : TransOp) (S : Size) (f : Fin 3 → ℝ) (x : Field) : Field :=
  match o with
  | .constant => constTrans S f x
  | .linear => linTrans S f x
  | .fourier => fourTrans S f x

end
end Jdftx.Fluid
