import Verif.Model.Outcome
import Verif.Model.Thread
import Mathlib.Algebra.Star.Basic
import Mathlib.Data.Int.Notation
import Mathlib.Algebra.Ring.Int.Defs

/-!
# Model of dense matrices (jdftx/core/matrix.h, jdftx/core/matrixOperators.cpp, jdftx/core/BlasExtra.cpp)

Elements are from a commutative ring with conjugation (`star`); rounding is not modelled. `int` does not overflow. Only the CPU
code is modelled. `cblas_zgemm` is represented by its documented effect.
-/
namespace Jdftx.Mtx

variable {K : Type}

/-- ManagedMemory.h: a block of memory with `size` elements. -/
structure Buf (K : Type) where
  size : Int
  f : Int → K

/-- Addresses of the block. -/
def Buf.Has (size : Int) (a : Int) : Prop := 0 ≤ a ∧ a < size

instance (size a : Int) : Decidable (Buf.Has size a) := inferInstanceAs (Decidable (_ ∧ _))

/-- matrix.h:54-57 `class matrix`; the data block has `nr*nc` elements (matrix.cpp:78-84). -/
structure M (K : Type) where
  nr : Int
  nc : Int
  f : Int → K

/-- matrix.h:62. -/
def M.index (m : M K) (i j : Int) : Int := m.nr * j + i

/-- matrix.cpp:78-84, 99-101: new matrix with undefined contents `junk`. -/
def fresh (junk : Int → K) (nr nc : Int) : M K := ⟨nr, nc, junk⟩

/-- scalar.h:52. -/
def ceildiv (num den : Int) : Int := (num + den - 1).tdiv den

/-- matrixOperators.cpp:26-39 `operator()(i,j)`. -/
def M.get (m : M K) (i j : Int) : Res K :=
  if ¬(i < m.nr ∧ i ≥ 0) then .error .die
  else if ¬(j < m.nc ∧ j ≥ 0) then .error .die
  else .ok (m.f (m.index i j))

/-- matrixOperators.cpp:72-84 `set(i,j,m)`. -/
def M.set1 (m : M K) (i j : Int) (v : K) : Res (M K) :=
  if ¬(i < m.nr ∧ i ≥ 0) then .error .die
  else if ¬(j < m.nc ∧ j ≥ 0) then .error .die
  else .ok { m with f := Function.update m.f (m.index i j) v }

/-- Memory after the writes in the list, in this order. -/
def applyWrites (l : List (Int × K)) (f : Int → K) : Int → K := l.foldl (fun f w => Function.update f w.1 w.2) f

/-- Pairs in the order of two nested loops. -/
def pairs (n m : Nat) : List (Nat × Nat) := (List.range n).flatMap fun a => (List.range m).map fun b => (a, b)

/-- matrixOperators.cpp:48-71 `operator()(iStart,iStep,iStop,jStart,jStep,jStop)`. -/
def M.getSub (m : M K) (junk : Int → K) (iStart iStep iStop jStart jStep jStop : Int) : Res (M K) :=
  if iStart = 0 ∧ iStep = 1 ∧ iStop = m.nr ∧ jStart = 0 ∧ jStep = 1 ∧ jStop = m.nc then .ok m
  else if ¬(iStart ≥ 0 ∧ iStart < m.nr) then .error .die
  else if ¬(iStop > iStart ∧ iStop ≤ m.nr) then .error .die
  else if ¬(iStep > 0) then .error .die
  else if ¬(jStart ≥ 0 ∧ jStart < m.nc) then .error .die
  else if ¬(jStop > jStart ∧ jStop ≤ m.nc) then .error .die
  else if ¬(jStep > 0) then .error .die
  else
    let iDelta := ceildiv (iStop - iStart) iStep
    let jDelta := ceildiv (jStop - jStart) jStep
    let ret := fresh junk iDelta jDelta
    let moves := (pairs iDelta.toNat jDelta.toNat).map fun p =>
      (ret.index p.1 p.2, m.index (p.1 * iStep + iStart) (p.2 * jStep + jStart))
    if ∀ w ∈ moves, Buf.Has (ret.nr * ret.nc) w.1 ∧ Buf.Has (m.nr * m.nc) w.2 then
      .ok { ret with f := applyWrites (moves.map fun w => (w.1, m.f w.2)) ret.f }
    else .error .ub

/-- matrixOperators.cpp:91-95: addresses written by `matrixSubSet` / `matrixSubAccum` and the position in `in` of the value. -/
def subMoves (nr iStart iStep iDelta jStart jStep jDelta : Int) : List (Int × Int) :=
  (pairs jDelta.toNat iDelta.toNat).zipIdx.map fun p =>
    (nr * (p.1.1 * jStep + jStart) + (p.1.2 * iStep + iStart), (p.2 : Int))

/-- matrixOperators.cpp:90-113: `matrix::set` (`op = fun _ v => v`) and `matrix::accum` (`op = (· + ·)`) for a block. The column
checks are written with `||` in the code, and so they are here. -/
def M.putSub (op : K → K → K) (m : M K) (iStart iStep iStop jStart jStep jStop : Int) (src : M K) : Res (M K) :=
  if ¬(iStart ≥ 0 ∧ iStart < m.nr) then .error .die
  else if ¬(iStop > iStart ∧ iStop ≤ m.nr) then .error .die
  else if ¬(iStep > 0) then .error .die
  else if ¬(jStart ≥ 0 ∨ jStart < m.nc) then .error .die
  else if ¬(jStop > jStart ∨ jStop ≤ m.nc) then .error .die
  else if ¬(jStep > 0) then .error .die
  else
    let iDelta := ceildiv (iStop - iStart) iStep
    let jDelta := ceildiv (jStop - jStart) jStep
    if ¬(iDelta = src.nr) then .error .die
    else if ¬(jDelta = src.nc) then .error .die
    else
      let moves := subMoves m.nr iStart iStep iDelta jStart jStep jDelta
      if ∀ w ∈ moves, Buf.Has (m.nr * m.nc) w.1 ∧ Buf.Has (src.nr * src.nc) w.2 then
        .ok { m with f := moves.foldl (fun f w => Function.update f w.1 (op (f w.1) (src.f w.2))) m.f }
      else .error .ub

/-- `matrix::set` on a block. -/
def M.setSub (m : M K) := M.putSub (fun _ v => v) m

/-- `matrix::accum` on a block. -/
def M.accumSub [Add K] (m : M K) := M.putSub (· + ·) m

/-! ## Matrix multiplication -/

/-- `CBLAS_TRANSPOSE`. -/
inductive Op where
  | no | trans | conjTrans
  deriving DecidableEq, Repr

variable [CommRing K] [StarRing K]

/-- Address of element `(i,k)` of the operand, relative to its pointer. -/
def Op.addr (o : Op) (ld i k : Int) : Int := if o = .no then i + ld * k else k + ld * i

/-- Conjugation required by the option. -/
def Op.val (o : Op) (x : K) : K := if o = .conjTrans then star x else x

/-- An update of one element of the result array: address and new value as a function of the old one. -/
abbrev Upd (K : Type) := Int × (K → K)

/-- Effect of a list of updates. -/
def runUpd (l : List (Upd K)) (f : Int → K) : Int → K := l.foldl (fun f u => Function.update f u.1 (u.2 (f u.1))) f

/-- Arguments of a matrix multiplication: operands with their pointers (offsets into their blocks). -/
structure Gemm (K : Type) where
  ta : Op
  tb : Op
  m : Nat
  n : Nat
  k : Nat
  alpha : K
  A : Buf K
  aOff : Int
  lda : Int
  B : Buf K
  bOff : Int
  ldb : Int
  beta : K
  cSize : Int
  cOff : Int
  ldc : Int

/-- New value of the element of the result. -/
def Gemm.elem (g : Gemm K) (i j : Nat) (old : K) : K :=
  g.alpha * ((List.range g.k).map fun (l : Nat) =>
    g.ta.val (g.A.f (g.aOff + g.ta.addr g.lda i l)) * g.tb.val (g.B.f (g.bOff + g.tb.addr g.ldb l j))).sum + g.beta * old

/-- `cblas_zgemm(CblasColMajor, ...)` as documented: wrong leading dimensions stop the program, accesses outside the blocks are
undefined, otherwise every element of the result is updated once. The order is not specified; see `C52_zgemm_partial`. -/
def cblasZgemm (g : Gemm K) : Res (List (Upd K)) :=
  if ¬(g.lda ≥ 1 ∧ g.lda ≥ (if g.ta = .no then g.m else g.k)) then .error .die
  else if ¬(g.ldb ≥ 1 ∧ g.ldb ≥ (if g.tb = .no then g.k else g.n)) then .error .die
  else if ¬(g.ldc ≥ 1 ∧ g.ldc ≥ g.m) then .error .die
  else if ∀ i < g.m, ∀ j < g.n, Buf.Has g.cSize (g.cOff + i + g.ldc * j) ∧
      ∀ l < g.k, Buf.Has g.A.size (g.aOff + g.ta.addr g.lda i l) ∧ Buf.Has g.B.size (g.bOff + g.tb.addr g.ldb l j) then
    .ok ((pairs g.n g.m).map fun p => (g.cOff + p.2 + g.ldc * p.1, g.elem p.2 p.1))
  else .error .ub

/-- BlasExtra.cpp:53-74 `eblas_zgemm_sub`: arguments of the call made for the range `[iMin,iMax)`. -/
def zgemmSub (g : Gemm K) (r : Nat × Nat) : Gemm K :=
  if g.m > g.n then
    { g with m := r.2 - r.1, aOff := g.aOff + r.1 * (if g.ta = .no then 1 else g.lda), cOff := g.cOff + r.1 }
  else
    { g with n := r.2 - r.1, bOff := g.bOff + r.1 * (if g.tb = .no then g.ldb else 1), cOff := g.cOff + r.1 * g.ldc }

/-- All threads one after the other. -/
def collect : List (Gemm K) → Res (List (Upd K))
  | [] => .ok []
  | g :: gs => match cblasZgemm g with
    | .error e => .error e
    | .ok l => match collect gs with
      | .error e => .error e
      | .ok ls => .ok (l ++ ls)

/-- BlasExtra.cpp:75-86 `eblas_zgemm` without threaded BLAS: the updates made by all threads. -/
def eblasZgemm (nThreads : Nat) (g : Gemm K) : Res (List (Upd K)) :=
  collect ((Thr.launchArgs nThreads (max g.m g.n)).map (zgemmSub g))

/-- matrix.h:107-143 `matrixScaledTransOp`: scaled, possibly transposed block of a matrix. -/
structure MOp (K : Type) where
  mat : M K
  scale : K
  iStart : Int
  iDelta : Int
  jStart : Int
  jDelta : Int
  op : Op

/-- matrix.h:119-123. -/
def MOp.of (m : M K) (scale : K) (op : Op) : MOp K := ⟨m, scale, 0, m.nr, 0, m.nc, op⟩

/-- matrix.h:131-135. -/
def MOp.block (m : M K) (iStart iStop jStart jStop : Int) (scale : K) : MOp K :=
  ⟨m, scale, iStart, iStop - iStart, jStart, jStop - jStart, .no⟩

/-- matrix.h:114-115. -/
def MOp.nRows (a : MOp K) : Int := if a.op = .no then a.iDelta else a.jDelta
def MOp.nCols (a : MOp K) : Int := if a.op = .no then a.jDelta else a.iDelta
/-- matrix.h:117. -/
def MOp.index (a : MOp K) (i j : Int) : Int :=
  if a.op = .no then a.mat.index (i + a.iStart) (j + a.jStart) else a.mat.index (j + a.iStart) (i + a.jStart)

/-- matrixOperators.cpp:117-129 `operator*(matrixScaledTransOp,matrixScaledTransOp)`; the updates run in the listed order. -/
def mulOp (nThreads : Nat) (junk : Int → K) (a b : MOp K) : Res (M K) :=
  if ¬(a.nCols = b.nRows) then .error .die
  else
    let ret := fresh junk a.nRows b.nCols
    match eblasZgemm nThreads {
        ta := a.op, tb := b.op, m := ret.nr.toNat, n := ret.nc.toNat, k := a.nCols.toNat,
        alpha := a.scale * b.scale, A := ⟨a.mat.nr * a.mat.nc, a.mat.f⟩, aOff := a.index 0 0, lda := a.mat.nr,
        B := ⟨b.mat.nr * b.mat.nc, b.mat.f⟩, bOff := b.index 0 0, ldb := b.mat.nr,
        beta := 0, cSize := ret.nr * ret.nc, cOff := 0, ldc := ret.nr } with
    | .error e => .error e
    | .ok l => .ok { ret with f := runUpd l ret.f }

/-- matrixOperators.cpp:416-428 `tiledBlockMatrix::operator*`, with `phase i` the phase of block `i` (1 without phases): the loop
over the blocks starting at `iBlock`. -/
def tiledMulLoop (nThreads : Nat) (blk : M K) (phase : Nat → K) (other : M K) : Nat → Nat → M K → Res (M K)
  | 0, _, result => .ok result
  | n+1, iBlock, result =>
    let offs := (iBlock : Int) * blk.nc
    match eblasZgemm nThreads {
        ta := .no, tb := .no, m := blk.nr.toNat, n := other.nc.toNat, k := blk.nc.toNat,
        alpha := phase iBlock, A := ⟨blk.nr * blk.nc, blk.f⟩, aOff := 0, lda := blk.nr,
        B := ⟨other.nr * other.nc, other.f⟩, bOff := offs, ldb := other.nr,
        beta := 0, cSize := result.nr * result.nc, cOff := offs, ldc := result.nr } with
    | .error e => .error e
    | .ok l => tiledMulLoop nThreads blk phase other n (iBlock + 1) { result with f := runUpd l result.f }

def tiledMul (nThreads : Nat) (junk : Int → K) (blk : M K) (nBlocks : Nat) (phase : Nat → K) (other : M K) : Res (M K) :=
  if ¬(blk.nc * nBlocks = other.nr) then .error .die
  else tiledMulLoop nThreads blk phase other nBlocks 0 (fresh junk (blk.nr * nBlocks) other.nc)

/-- matrixOperators.cpp:430-443 `operator*(matrix,tiledBlockMatrix)`. -/
def mulTiledLoop (nThreads : Nat) (m : M K) (blk : M K) (phase : Nat → K) : Nat → Nat → M K → Res (M K)
  | 0, _, result => .ok result
  | n+1, iBlock, result =>
    let offsIn := (iBlock : Int) * blk.nr * m.nr
    let offsOut := (iBlock : Int) * blk.nc * m.nr
    match eblasZgemm nThreads {
        ta := .no, tb := .no, m := m.nr.toNat, n := blk.nc.toNat, k := blk.nr.toNat,
        alpha := phase iBlock, A := ⟨m.nr * m.nc, m.f⟩, aOff := offsIn, lda := m.nr,
        B := ⟨blk.nr * blk.nc, blk.f⟩, bOff := 0, ldb := blk.nr,
        beta := 0, cSize := result.nr * result.nc, cOff := offsOut, ldc := result.nr } with
    | .error e => .error e
    | .ok l => mulTiledLoop nThreads m blk phase n (iBlock + 1) { result with f := runUpd l result.f }

def mulTiled (nThreads : Nat) (junk : Int → K) (m : M K) (blk : M K) (nBlocks : Nat) (phase : Nat → K) : Res (M K) :=
  if ¬(m.nc = blk.nr * nBlocks) then .error .die
  else mulTiledLoop nThreads m blk phase nBlocks 0 (fresh junk m.nr (blk.nc * nBlocks))

end Jdftx.Mtx
