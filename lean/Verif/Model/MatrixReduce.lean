import Verif.Model.Matrix
import Mathlib.Analysis.Real.Sqrt
import Mathlib.Data.Complex.Basic

/-!
# Model of conversions and reductions of dense matrices (jdftx/core/matrixOperators.cpp, jdftx/core/matrixLinalg.cpp)

`cblas_zaxpy`, `cblas_zdotc`, `cblas_dznrm2` and `cblas_dscal` are represented by their documented effect; the division of these
calls over threads (BlasExtra.cpp) is not modelled. Exact complex numbers instead of `complex`.
-/
namespace Jdftx.Mtx
noncomputable section
open ComplexConjugate

/-- BlasExtra.h:287 `eblas_zaxpy(N, a, x+xOff, incx, y+yOff, 1)` into a block of `ySize` elements. -/
def zaxpy (n : Nat) (a : ℂ) (x : Buf ℂ) (xOff incx : Int) (ySize yOff : Int) (y : Int → ℂ) : Res (Int → ℂ) :=
  if ∀ i < n, Buf.Has x.size (xOff + i * incx) ∧ Buf.Has ySize (yOff + i) then
    .ok (runUpd ((List.range n).map fun (i : Nat) => ((yOff + i, fun old => old + a * x.f (xOff + i * incx)) : Upd ℂ)) y)
  else .error .ub

/-- matrixOperators.cpp:327-331, the loop over the columns of the result starting at `retOff`, `inOff`. -/
def convLoop (a : MOp ℂ) (scale : ℂ) (nRows : Nat) (size : Int) : Nat → Int → Int → (Int → ℂ) → Res (Int → ℂ)
  | 0, _, _, f => .ok f
  | n+1, retOff, inOff, f =>
    match zaxpy nRows scale ⟨a.mat.nr * a.mat.nc, a.mat.f⟩ inOff a.mat.nr size retOff f with
    | .error e => .error e
    | .ok f => convLoop a scale nRows size n (retOff + nRows) (inOff + 1) f

/-- matrixOperators.cpp:319-337 `matrixScaledTransOp::operator matrix`. Negating the imaginary parts is conjugation. -/
def toMatrix (junk : Int → ℂ) (a : MOp ℂ) : Res (M ℂ) :=
  if a.op = .no then
    match a.mat.getSub junk a.iStart 1 (a.iStart + a.iDelta) a.jStart 1 (a.jStart + a.jDelta) with
    | .error e => .error e
    | .ok r => .ok { r with f := fun x => a.scale * r.f x }
  else
    match convLoop a a.scale a.nRows.toNat (a.nRows * a.nCols) a.nCols.toNat 0 (a.index 0 0) (fun _ => 0) with
    | .error e => .error e
    | .ok f => .ok ⟨a.nRows, a.nCols, if a.op = .conjTrans then fun x => conj (f x) else f⟩

/-- matrixOperators.cpp:347-353 `dagger`. -/
def dagger (a : MOp ℂ) : Res (MOp ℂ) :=
  if ¬(a.op ≠ .trans) then .error .die else .ok { a with op := if a.op = .no then .conjTrans else .no }

/-- matrixOperators.cpp:358-364 `transpose`. -/
def transpose (a : MOp ℂ) : Res (MOp ℂ) :=
  if ¬(a.op ≠ .conjTrans) then .error .die else .ok { a with op := if a.op = .no then .trans else .no }

/-- matrixOperators.cpp:272-276 `trace(matrix)`: dot product of a constant one (stride 0) with the diagonal (stride `nCols+1`). -/
def trace (A : M ℂ) : Res ℂ :=
  if ¬(A.nr = A.nc) then .error .die
  else if ∀ i < A.nr.toNat, Buf.Has (A.nr * A.nc) (i * (A.nc + 1)) then
    .ok ((List.range A.nr.toNat).map fun (i : Nat) => conj (1 : ℂ) * A.f (i * (A.nc + 1))).sum
  else .error .ub

/-- matrixOperators.cpp:290-304 `diag(matrix)` (CPU): the real parts, with stride `N+1`, added to a zero vector. -/
def diag (A : M ℂ) : Res (List ℝ) :=
  if ¬(A.nr = A.nc) then .error .die
  else if ∀ i < A.nr.toNat, Buf.Has (A.nr * A.nc) (i * (A.nr + 1)) then
    .ok ((List.range A.nr.toNat).map fun (i : Nat) => 0 + 1 * (A.f (i * (A.nr + 1))).re)
  else .error .ub

/-- matrixOperators.cpp:224-227, running sum over one column with both pointers at `p`; also returns the advanced pointer. -/
def diagDotCol (X Y : Int → ℂ) : Nat → Int → ℝ → ℝ × Int
  | 0, p, acc => (acc, p)
  | n+1, p, acc => diagDotCol X Y n (p + 1) (acc + (conj (X p) * Y p).re)

/-- matrixOperators.cpp:223-229 `diagDot_thread` from column `col` on: writes to `out`. -/
def diagDotCols (X Y : Int → ℂ) (nRows : Nat) : Nat → Nat → Int → List (Nat × ℝ)
  | 0, _, _ => []
  | n+1, col, p => (col, (diagDotCol X Y nRows p 0).1) :: diagDotCols X Y nRows n (col + 1) (diagDotCol X Y nRows p 0).2

/-- matrixOperators.cpp:220-248 `diagDot(X,Y)`: all writes to the result, for any number of threads (listed thread after thread). -/
def diagDot (nThreads : Nat) (X Y : M ℂ) : Res (List (Nat × ℝ)) :=
  if ¬(X.nc = Y.nc) then .error .die
  else if ¬(X.nr = Y.nr) then .error .die
  else .ok ((Thr.launchArgs nThreads X.nc.toNat).flatMap fun r =>
    diagDotCols X.f Y.f X.nr.toNat (r.2 - r.1) r.1 (r.1 * X.nr))

/-- `cblas_dznrm2` with unit stride. -/
def dznrm2 (n : Nat) (f : Int → ℂ) (off : Int) : ℝ :=
  Real.sqrt ((List.range n).map fun (i : Nat) => Complex.normSq (f (off + i))).sum

/-- matrixOperators.cpp:376-380, loop over the columns. -/
def nrm2Loop (a : MOp ℂ) : Nat → Int → ℝ → ℝ
  | 0, _, acc => acc
  | n+1, p, acc => nrm2Loop a n (p + a.mat.nr) (acc + (dznrm2 a.iDelta.toNat a.mat.f p) ^ 2)

/-- matrixOperators.cpp:371-384 `nrm2(matrixScaledTransOp)` (memory accesses are not checked). -/
def nrm2 (a : MOp ℂ) : ℝ :=
  if a.iDelta = a.mat.nr then dznrm2 (a.iDelta * a.jDelta).toNat a.mat.f (a.mat.index a.iStart a.jStart)
  else Real.sqrt (nrm2Loop a a.jDelta.toNat (a.mat.index a.iStart a.jStart) 0)

/-- matrixOperators.cpp:256-258, product of the diagonal from element `i` on. -/
def detLoop (d : M ℂ) : Nat → Int → ℂ → Res ℂ
  | 0, _, acc => .ok acc
  | n+1, i, acc => match d.get i i with
    | .error e => .error e
    | .ok x => detLoop d n (i + 1) (acc * x)

/-- matrixOperators.cpp:251-262 `det(matrix)`, matrixLinalg.cpp:320-371 `LU`: `lu` is the array left by LAPACK's `zgetrf`. -/
def det (A : M ℂ) (lu : M ℂ) : Res ℂ :=
  if ¬(A.nr > 0) then .error .die
  else if ¬(A.nr = A.nc) then .error .die
  else detLoop lu A.nr.toNat 0 1

end
end Jdftx.Mtx
