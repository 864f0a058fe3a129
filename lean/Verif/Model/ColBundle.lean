import Verif.Model.Outcome
import Mathlib.Algebra.Group.Basic
import Mathlib.Logic.Function.Basic
/-!
# Model of columns of wavefunctions and of reading them from files (jdftx/electronic/ColumnBundle.cpp)

The data is a function on positions; positions from `nCols * colLength` on are outside the allocation (see
`C115_range`). Coefficients are those of a commutative monoid (exact); the factors 1 of the accumulations are left out.
Copies to and from GPUs, messages between processes and the position of the data of each process in the file are not
modelled (for those see `Collective.lean`). Reading from real-space files (ColumnBundle.cpp:248-272) is not modelled.
-/
namespace Jdftx.Cols

variable {α : Type} [AddCommMonoid α]

/-- `ColumnBundle` (ColumnBundle.h) with its basis: number of columns, `nbasis`, `spinorLength()`, positions of the plane
waves in the box (`basis->index`), data. -/
structure Bundle (α : Type) where
  nCols : ℕ
  nbasis : ℕ
  nSpinor : ℕ
  index : ℕ → ℕ
  data : ℕ → α

/-- `colLength()`: ColumnBundle.cpp:162, 297. -/
def Bundle.colLength (B : Bundle α) : ℕ := B.nbasis * B.nSpinor

/-- electronic/ColumnBundle.h:48 `index(i, j)`. -/
def Bundle.at (B : Bundle α) (i j : ℕ) : ℕ := i * B.colLength + j

/-- `eblas_scatter_zdaxpy` (core/BlasExtra.cpp:88-91) with factor 1: `y[index[j]] += x[off+j]` for `j` below `n`. -/
def scatter (n : ℕ) (index : ℕ → ℕ) (x : ℕ → α) (off : ℕ) (y : ℕ → α) : ℕ → α :=
  (List.range n).foldl (fun y j => Function.update y (index j) (y (index j) + x (off + j))) y

/-- `eblas_gather_zdaxpy` (core/BlasExtra.cpp:92-95) with factor 1: `y[off+j] += x[index[j]]` for `j` below `n`. -/
def gather (n : ℕ) (index : ℕ → ℕ) (x : ℕ → α) (y : ℕ → α) (off : ℕ) : ℕ → α :=
  (List.range n).foldl (fun y j => Function.update y (off + j) (y (off + j) + x (index j))) y

/-- `eblas_zero(n, y+off)`, as called in ColumnBundle.cpp:142. -/
def zeroFrom (n : ℕ) (y : ℕ → α) (off : ℕ) : ℕ → α :=
  fun t => if off ≤ t ∧ t < off + n then 0 else y t

/-- `eblas_copy(y+off, x+src, n)`, as called in ColumnBundle.cpp:107 and 116. -/
def copyTo (n : ℕ) (x : ℕ → α) (src : ℕ) (y : ℕ → α) (off : ℕ) : ℕ → α :=
  fun t => if off ≤ t ∧ t < off + n then x (src + (t - off)) else y t

/-- ColumnBundle.cpp:131-138 `getColumn`: the column on the full box. -/
def Bundle.getColumn (B : Bundle α) (i s : ℕ) : Res (ℕ → α) :=
  if i < B.nCols ∧ s < B.nSpinor then .ok (scatter B.nbasis B.index B.data (B.at i (s * B.nbasis)) fun _ => 0)
  else .error .die

/-- ColumnBundle.cpp:147-152 `accumColumn`. -/
def Bundle.accumColumn (B : Bundle α) (i s : ℕ) (full : ℕ → α) : Res (Bundle α) :=
  if i < B.nCols ∧ s < B.nSpinor then
    .ok { B with data := gather B.nbasis B.index full B.data (B.at i (s * B.nbasis)) }
  else .error .die

/-- ColumnBundle.cpp:140-145 `setColumn`. The column is set to zero before the check of the indices: outside the
allocation this is undefined behaviour. -/
def Bundle.setColumn (B : Bundle α) (i s : ℕ) (full : ℕ → α) : Res (Bundle α) :=
  if B.at i (s * B.nbasis) + B.nbasis ≤ B.nCols * B.colLength then
    Bundle.accumColumn { B with data := zeroFrom B.nbasis B.data (B.at i (s * B.nbasis)) } i s full
  else .error .ub

/-- ColumnBundle.cpp:101-109 `getSub`; `junk` is what the new allocation holds outside. -/
def Bundle.getSub (B : Bundle α) (colStart colStop : ℕ) (junk : ℕ → α) : Res (Bundle α) :=
  if colStop ≤ B.nCols ∧ colStart < colStop then
    .ok { B with
      nCols := colStop - colStart
      data := copyTo ((colStop - colStart) * B.colLength) B.data (colStart * B.colLength) junk 0 }
  else .error .die

/-- ColumnBundle.cpp:111-117 `setSub`. -/
def Bundle.setSub (B : Bundle α) (colStart : ℕ) (Y : Bundle α) : Res (Bundle α) :=
  if colStart < B.nCols ∧ B.colLength = Y.colLength then
    .ok { B with
      data := copyTo (min Y.nCols (B.nCols - colStart) * B.colLength) Y.data 0 B.data (colStart * B.colLength) }
  else .error .die

/-- The basis for the wavefunctions in the file (`basisTmp[q]`, ColumnBundle.cpp:291): number of plane waves and their
positions. -/
structure BasisOf where
  nbasis : ℕ
  index : ℕ → ℕ

/-- `ColumnBundleReadConversion` (ColumnBundle.cpp:242-245) without `realSpace`; cutoffs are compared only.
A negative number of bands gives no conversion (commands/initial_state.cpp:137-139). -/
structure Conversion (K : Type) where
  nBandsOld : ℕ
  Ecut : K
  EcutOld : K

variable {K : Type} [DecidableEq K] [Zero K]

/-- ColumnBundle.cpp:280-287: number of columns in the file. -/
def fileCols (Y : Bundle α) : Option (Conversion K) → ℕ
  | none => Y.nCols
  | some c => if c.nBandsOld ≠ 0 ∧ c.nBandsOld ≠ Y.nCols then c.nBandsOld else Y.nCols

/-- ColumnBundle.cpp:286-287: whether another basis is set up. -/
def customBasis : Option (Conversion K) → Bool
  | none => false
  | some c => decide ((if c.EcutOld ≠ 0 then c.EcutOld else c.Ecut) ≠ c.Ecut)

/-- ColumnBundle.cpp:279-293 `needTmp`. -/
def needTmp (Y : Bundle α) (c : Option (Conversion K)) : Bool :=
  decide (fileCols Y c ≠ Y.nCols) || customBasis c

/-- ColumnBundle.cpp:323-325: the loops over bands and spinor components, as a list of pairs. -/
def pairs (n nSpinor : ℕ) : List (ℕ × ℕ) :=
  (List.range n).flatMap fun b => (List.range nSpinor).map fun s => (b, s)

/-- ColumnBundle.cpp:325: one pair. -/
def convertColumn (tmp : Bundle α) (Y : Res (Bundle α)) (p : ℕ × ℕ) : Res (Bundle α) := do
  let Y ← Y
  let full ← tmp.getColumn p.1 p.2
  Y.setColumn p.1 p.2 full

/-- ColumnBundle.cpp:279-297 and 318-332: what becomes of the wavefunctions `Y` of one state, with `content` the numbers
in the file for this state; `old` is the basis for the cutoff of the file. -/
def readState (Y : Bundle α) (c : Option (Conversion K)) (old : BasisOf) (content junk : ℕ → α) : Res (Bundle α) :=
  if needTmp Y c then
    if customBasis c then
      let tmp : Bundle α := ⟨fileCols Y c, old.nbasis, Y.nSpinor, old.index, content⟩
      (pairs (min Y.nCols tmp.nCols) Y.nSpinor).foldl (convertColumn tmp) (.ok Y)
    else
      let tmp : Bundle α := { Y with nCols := fileCols Y c, data := content }
      if tmp.nCols < Y.nCols then Y.setSub 0 tmp else tmp.getSub 0 Y.nCols junk
  else .ok { Y with data := content }

end Jdftx.Cols
