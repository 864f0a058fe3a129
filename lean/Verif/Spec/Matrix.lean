import Verif.Model.Matrix
import Mathlib.Algebra.BigOperators.Group.Finset.Basic

/-!
# Specification for C50-C52, C63
-/
namespace Jdftx.Mtx
variable {K : Type}

/-- Entry in row `i`, column `j`, for column-by-column storage. -/
def entry (m : M K) (i j : Int) : K := m.f (m.nr * j + i)

/-- Position `i` of a matrix is the `a`-th position of the slice `start, start+step, ...` below `stop`. -/
def Sel (start step stop i a : Int) : Prop := 0 ≤ a ∧ i = start + a * step ∧ i < stop

/-- A slice lies inside a range of `n` positions. -/
def Inside (n start step stop : Int) : Prop := 0 ≤ start ∧ start < stop ∧ stop ≤ n ∧ 0 < step

/-- `c` is the number of positions in the slice. -/
def Count (start step stop c : Int) : Prop := ∀ a : Int, 0 ≤ a → (a < c ↔ start + a * step < stop)

variable [CommRing K] [StarRing K]

/-- Element `(i,j)` of the matrix stored at `off` with leading dimension `ld`, after the transposition option. -/
def opElem (o : Op) (f : Int → K) (off ld i j : Int) : K :=
  match o with
  | .no => f (off + i + ld * j)
  | .trans => f (off + j + ld * i)
  | .conjTrans => star (f (off + j + ld * i))

/-- `C'` is `alpha op(A) op(B) + beta C` on the `m` by `n` result, and everything else is unchanged. -/
def IsGemm (g : Gemm K) (C C' : Int → K) : Prop :=
  (∀ i < g.m, ∀ j < g.n, C' (g.cOff + i + g.ldc * j) =
    g.alpha * ∑ l ∈ Finset.range g.k, opElem g.ta g.A.f g.aOff g.lda i l * opElem g.tb g.B.f g.bOff g.ldb l j
      + g.beta * C (g.cOff + i + g.ldc * j)) ∧
  ∀ x, (∀ i < g.m, ∀ j < g.n, x ≠ g.cOff + i + g.ldc * j) → C' x = C x

/-- Element `(i,j)` of a scaled, possibly transposed block. -/
def MOp.elem (a : MOp K) (i j : Int) : K :=
  match a.op with
  | .no => a.scale * entry a.mat (a.iStart + i) (a.jStart + j)
  | .trans => a.scale * entry a.mat (a.iStart + j) (a.jStart + i)
  | .conjTrans => a.scale * star (entry a.mat (a.iStart + j) (a.jStart + i))

/-- The block is not empty and lies inside the matrix. -/
def MOp.Ok (a : MOp K) : Prop :=
  0 ≤ a.iStart ∧ 0 < a.iDelta ∧ a.iStart + a.iDelta ≤ a.mat.nr ∧ 0 ≤ a.jStart ∧ 0 < a.jDelta ∧ a.jStart + a.jDelta ≤ a.mat.nc

/-- Element `(r,c)` of the explicit block-diagonal matrix: copies of `blk`, multiplied by the phases, along the diagonal. -/
def tiledEntry (blk : M K) (phase : Nat → K) (r c : Nat) : K :=
  if (r : Int) / blk.nr = (c : Int) / blk.nc then phase ((r : Int) / blk.nr).toNat * entry blk ((r : Int) % blk.nr) ((c : Int) % blk.nc) else 0

end Jdftx.Mtx
