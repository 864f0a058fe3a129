import Verif.Model.Box
import Mathlib.Data.Complex.Basic
import Mathlib.Data.Complex.BigOperators
import Mathlib.Algebra.BigOperators.Group.Finset.Basic
import Mathlib.Analysis.Real.Sqrt

/-!
# Model of operations on fields in reciprocal space

jdftx/core/Operators_internal.h and jdftx/core/Operators.cpp. Arrays are functions of the index; the loops over the grid are
turned into the list of writes they perform, so that any interleaving of threads is a permutation of that list (the loop
bodies below read only from arrays that the loop does not write). Complex arithmetic is exact.
-/
namespace Jdftx.Box
open scoped ComplexConjugate
noncomputable section

/-- An array of complex numbers. -/
abbrev Arr := Int → ℂ

/-- Executes a list of writes. -/
def applyWrites (ws : List (Int × ℂ)) (a : Arr) : Arr := ws.foldl (fun a w => Function.update a w.1 w.2) a

/-! ### Conversion between half and full reciprocal space -/

/-- Operators_internal.h:42-48 `RealG_calc`. -/
def realCalc (S : Size) (vFull : Arr) (scaleFac : ℝ) (iG : IV) : ℂ :=
  (scaleFac : ℂ) * (1/2) * (vFull (iFull S iG) + conj (vFull (iFullRef S iG)))

/-- Operators_internal.h:50-56 `ImagG_calc`. -/
def imagCalc (S : Size) (vFull : Arr) (scaleFac : ℝ) (iG : IV) : ℂ :=
  (⟨0, -scaleFac * (1/2)⟩ : ℂ) * (vFull (iFull S iG) - conj (vFull (iFullRef S iG)))

/-- Operators.cpp:39-56: the writes of `Real(complexScalarFieldTilde)`. -/
def realWrites (S : Size) (vFull : Arr) (scaleFac : ℝ) : List (Int × ℂ) :=
  (hLoop S 0 (nG S)).map fun p => ((p.1 : Int), realCalc S vFull scaleFac p.2)

/-- Operators.cpp:66-83: the writes of `Imag(complexScalarFieldTilde)`. -/
def imagWrites (S : Size) (vFull : Arr) (scaleFac : ℝ) : List (Int × ℂ) :=
  (hLoop S 0 (nG S)).map fun p => ((p.1 : Int), imagCalc S vFull scaleFac p.2)

/-- Operators_internal.h:58-66 `ComplexG_calc`, Operators.cpp:102-119: the writes of `Complex(ScalarFieldTilde)`. -/
def complexWrites (S : Size) (vHalf : Arr) (scaleFac : ℝ) : List (Int × ℂ) :=
  (hLoop S 0 (nG S)).flatMap fun p =>
    [(iFull S p.2, (scaleFac : ℂ) * vHalf p.1), (iFullRef S p.2, conj ((scaleFac : ℂ) * vHalf p.1))]

/-! ### Change of grid -/

/-- Operators_internal.h:72-78: index in the half grid, or nothing (`return`). -/
def cgIndex (S : Size) (v : IV) : Option Int :=
  if 2 * v.x < 1 - S.s0 ∨ 2 * v.x > S.s0 then none
  else
    let i := 0 * (S.s0 : Int) + (if v.x < 0 then v.x + S.s0 else v.x)
    if 2 * v.y < 1 - S.s1 ∨ 2 * v.y > S.s1 then none
    else
      let i := i * S.s1 + (if v.y < 0 then v.y + S.s1 else v.y)
      if 2 * v.z > S.s2 then none else some (i * (1 + (S.s2 : Int) / 2) + v.z)

/-- Operators_internal.h:88-92: index in the full grid, or nothing (`return`). -/
def cgIndexFull (S : Size) (v : IV) : Option Int :=
  if 2 * v.x < 1 - S.s0 ∨ 2 * v.x > S.s0 then none
  else
    let i := 0 * (S.s0 : Int) + (if v.x < 0 then v.x + S.s0 else v.x)
    if 2 * v.y < 1 - S.s1 ∨ 2 * v.y > S.s1 then none
    else
      let i := i * S.s1 + (if v.y < 0 then v.y + S.s1 else v.y)
      if 2 * v.z < 1 - S.s2 ∨ 2 * v.z > S.s2 then none
      else some (i * S.s2 + (if v.z < 0 then v.z + S.s2 else v.z))

/-- Operators_internal.h:79-82 and 93-96: the source and destination index, if both exist. -/
def cgPair (idx : Size → IV → Option Int) (Sin Sout : Size) (v : IV) : Option (Int × Int) :=
  match idx Sin v with
  | none => none
  | some i => match idx Sout v with
    | none => none
    | some o => some (i, o)

/-- Operators.cpp:865, 891: `Smax`. -/
def smax (A B : Size) : Size := ⟨max A.s0 B.s0, max A.s1 B.s1, max A.s2 B.s2⟩

/-- Operators.cpp:850-869 `changeGrid(ScalarFieldTilde)`: source and destination indices of the copies. -/
def cgCopies (Sin Sout : Size) : List (Int × Int) :=
  (hLoop (smax Sin Sout) 0 (nG (smax Sin Sout))).filterMap fun p => cgPair cgIndex Sin Sout p.2

/-- Operators.cpp:876-895 `changeGrid(complexScalarFieldTilde)`: source and destination indices of the copies. -/
def cgCopiesFull (Sin Sout : Size) : Res (List (Int × Int)) :=
  match gLoop (smax Sin Sout) (nr (smax Sin Sout)) 0 (nr (smax Sin Sout)) with
  | .ok l => .ok (l.filterMap fun p => cgPair cgIndexFull Sin Sout p.2)
  | .error e => .error e

/-- Operators_internal.h:82, 96: perform the copies, starting from a zeroed array (`nullToZero`, Operators.cpp:861, 887). -/
def cgRun (copies : List (Int × Int)) (fin : Arr) : Arr := applyWrites (copies.map fun c => (c.2, fin c.1)) fun _ => 0

/-! ### Inner products -/

/-- `eblas_zdotc(N, X, incx, Y, incy)` with offsets (BlasExtra.cpp): sum of `conj(X)*Y`. -/
def zdotc (N : Nat) (X : Arr) (incx : Nat) (Y : Arr) (incy : Nat) : ℂ :=
  ∑ j ∈ Finset.range N, conj (X (j * incx : Nat)) * Y (j * incy : Nat)

/-- Pointer offset `X + k`. -/
def shift (X : Arr) (k : Nat) : Arr := fun i => X (k + i)

/-- Operators.cpp:778-787 `dot(ScalarFieldTilde, ScalarFieldTilde)` (unit scale factors). -/
def dotHalf (S : Size) (X Y : Arr) : ℝ :=
  let N := nG S
  let S2 := S.s2 / 2 + 1
  let S01 := S.s0 * S.s1
  let complexDot := zdotc N X 1 Y 1
  let correction1 := zdotc S01 X S2 Y S2
  let correction2 := if S2 = 1 then 0 else zdotc S01 (shift X (S2 - 1)) S2 (shift Y (S2 - 1)) S2
  (2 * complexDot - correction1 - correction2).re

/-- Operators.h:221-223: inner product of complex fields. -/
def dotFull (S : Size) (X Y : Arr) : ℂ := zdotc (nr S) X 1 Y 1

/-- `eblas_dznrm2`, squared: the code takes the square root and squares it again (Operators.cpp:797-801); the model omits
this detour. -/
def znrm2sq (N : Nat) (X : Arr) (incx : Nat) : ℝ := ∑ j ∈ Finset.range N, Complex.normSq (X (j * incx : Nat))

/-- Operators.cpp:793-802 `nrm2(ScalarFieldTilde)` (unit scale factor). -/
def nrm2Half (S : Size) (X : Arr) : ℝ :=
  let N := nG S
  let S2 := S.s2 / 2 + 1
  let S01 := S.s0 * S.s1
  let complexNorm := znrm2sq N X 1
  let correction1 := znrm2sq S01 X S2
  let correction2 := if S2 = 1 then 0 else znrm2sq S01 (shift X (S2 - 1)) S2
  Real.sqrt (2 * complexNorm - correction1 - correction2)

/-- Operators.cpp:809-819 `sum(ScalarFieldTilde)` (unit scale factor). -/
def sumHalf (S : Size) (X : Arr) : ℝ :=
  let one : Arr := fun _ => 1
  let N := nG S
  let S2 := S.s2 / 2 + 1
  let S01 := S.s0 * S.s1
  let complexSum := zdotc N X 1 one 0
  let correction1 := zdotc S01 X S2 one 0
  let correction2 := if S2 = 1 then 0 else zdotc S01 (shift X (S2 - 1)) S2 one 0
  (2 * complexSum - correction1 - correction2).re

/-! ### Gradient and divergence (Operators_internal.h:172-213, Operators.cpp:968-1080) -/

/-- A loop over the half grid that writes element `i` of its output from the coordinates of point `i`. -/
def halfMap (S : Size) (f : Nat → IV → ℂ) : Arr :=
  applyWrites ((hLoop S 0 (nG S)).map fun p => ((p.1 : Int), f p.1 p.2)) fun _ => 0

/-- `iG * G`: Cartesian components of the reciprocal lattice vector (row vector times matrix). -/
def gvec (G : Fin 3 → Fin 3 → ℝ) (v : IV) (k : Fin 3) : ℝ := v.x * G 0 k + v.y * G 1 k + v.z * G 2 k

/-- Operators_internal.h:176, 182: `iota`. -/
def iota (S : Size) (v : IV) : ℂ := ⟨0, if isNyquist S v then 0 else 1⟩

/-- Operators_internal.h:174-178, Operators.cpp:968-990: component `k` of `gradient`. -/
def gradient (S : Size) (G : Fin 3 → Fin 3 → ℝ) (X : Arr) (k : Fin 3) : Arr :=
  halfMap S fun i v => (gvec G v k : ℂ) * (iota S v * X i)

/-- Operators_internal.h:180-184, Operators.cpp:994-1010: `divergence`. -/
def divergence (S : Size) (G : Fin 3 → Fin 3 → ℝ) (V : Fin 3 → Arr) : Arr :=
  halfMap S fun i v => iota S v * ((gvec G v 0 : ℂ) * V 0 i + (gvec G v 1 : ℂ) * V 1 i + (gvec G v 2 : ℂ) * V 2 i)

/-- VectorField.h:79-90: the five stored components of a symmetric traceless tensor. -/
structure Tensor (A : Type) where
  xy : A
  yz : A
  zx : A
  xxr : A
  yyr : A

/-- Operators_internal.h:187-198: `tensorGradient`. -/
def tensorGradient (S : Size) (G : Fin 3 → Fin 3 → ℝ) (X : Arr) : Tensor Arr :=
  let mX : Nat → IV → ℂ := fun i v => if isNyquist S v then 0 else - X i
  let g := fun v k => (gvec G v k : ℂ)
  let gsq := fun v => g v 0 * g v 0 + g v 1 * g v 1 + g v 2 * g v 2
  { xy := halfMap S fun i v => mX i v * g v 0 * g v 1
    yz := halfMap S fun i v => mX i v * g v 1 * g v 2
    zx := halfMap S fun i v => mX i v * g v 2 * g v 0
    xxr := halfMap S fun i v => mX i v * (g v 0 * g v 0 - (1/3) * gsq v)
    yyr := halfMap S fun i v => mX i v * (g v 1 * g v 1 - (1/3) * gsq v) }

/-- Operators_internal.h:200-213: `tensorDivergence`. -/
def tensorDivergence (S : Size) (G : Fin 3 → Fin 3 → ℝ) (V : Tensor Arr) : Arr :=
  let g := fun v k => (gvec G v k : ℂ)
  halfMap S fun i v =>
    - (if isNyquist S v then 0 else
        V.xy i * (2 * g v 0 * g v 1) + V.yz i * (2 * g v 1 * g v 2) + V.zx i * (2 * g v 2 * g v 0)
        + V.xxr i * (g v 0 * g v 0 - g v 2 * g v 2) + V.yyr i * (g v 1 * g v 1 - g v 2 * g v 2))

end
end Jdftx.Box
