import Verif.Model.MatFunc
import Verif.Model.CellMap
import Mathlib.Analysis.SpecialFunctions.Complex.Arg
import Mathlib.Algebra.BigOperators.Intervals

/-!
# Model of the spread of Wannier functions and of its minimization (jdftx/wannier/WannierMinimizerFD.cpp, WannierMinimizer.cpp)

Exact arithmetic. Matrices are functions of two indices; their sizes are those written in the comments, and products carry the length of the
contracted index. The division of the k-points among processes only splits the sums over k-points (`kDivision`, `allReduce`, `reduceData`), and
is not modelled. Edges of all k-points have the same offsets and weights (WannierMinimizerFD.cpp:166-171).
-/
namespace Jdftx.Wan
noncomputable section
open M3 Finset
open scoped ComplexConjugate
open MatFunc (Diag)

/-- `matrix`, without its size. -/
abbrev CM := ℕ → ℕ → ℂ

/-- `operator*` of two matrices, with `K` the number of columns of the first one. -/
def mul (K : ℕ) (A B : CM) : CM := fun i j => ∑ k ∈ range K, A i k * B k j

/-- `dagger`. -/
def dag (A : CM) : CM := fun i j => conj (A j i)

/-- `A(i0,i1, j0,j1)`. -/
def sub (A : CM) (i0 j0 : ℕ) : CM := fun i j => A (i0 + i) (j0 + j)

/-- `A.set(i0,i1, j0,j1, B)`. -/
def set (A : CM) (i0 i1 j0 j1 : ℕ) (B : CM) : CM := fun i j => if i0 ≤ i ∧ i < i1 ∧ j0 ≤ j ∧ j < j1 then B (i - i0) (j - j0) else A i j

/-- matrixLinalg.cpp:256-260 `cis` of an n x n matrix, see `MatFunc.cis`. -/
def cisN (d : ∀ n, Diag n) (n : ℕ) (A : CM) : CM := fun i j =>
  if h : i < n ∧ j < n then MatFunc.cis (d n) (Matrix.of fun a b => A a b) ⟨i, h.1⟩ ⟨j, h.2⟩ else 0

/-- WannierMinimizer.h:78-88 `KmeshEntry`: `weight` is that of `point`, U1 is nBands x nIn, U2 is nIn x nIn and U is nBands x nIn. -/
structure Entry where
  weight : ℝ
  nIn : ℕ
  nFixed : ℕ
  U1 : CM
  U2 : CM
  U : CM

/-- The minimizer: numbers of bands, of centers and of frozen centers, k-points, edges (WannierMinimizerFD.h `Edge`: offset, weight, neighbour and overlaps,
nBands x nBands) and pinned positions. -/
structure Sys where
  nBands : ℕ
  nCenters : ℕ
  nFrozen : ℕ
  nk : ℕ
  k : ℕ → Entry
  nEdge : ℕ
  b : ℕ → V3 ℝ
  wb : ℕ → ℝ
  nbr : ℕ → ℕ → ℕ
  M0 : ℕ → ℕ → CM
  pinned : ℕ → Bool
  rPinned : ℕ → V3 ℝ

/-- WannierMinimizer.h `WannierGradient`: one pair of matrices for each k-point; `B1` is used where nIn > nCenters. -/
structure Grad where
  B1 : ℕ → CM
  B2 : ℕ → CM

variable (s : Sys)

/-- WannierMinimizerFD.cpp:320: `M` on edge `j` of k-point `i`. -/
def Mat (i j : ℕ) : CM := mul s.nBands (mul s.nBands (dag (s.k i).U) (s.M0 i j)) (s.k (s.nbr i j)).U

/-- WannierMinimizerFD.cpp:323 `Tnn`. -/
def Tnn (j n : ℕ) : ℂ := ⟨Real.cos (dot (s.rPinned n) (s.b j)), Real.sin (dot (s.rPinned n) (s.b j))⟩

/-- WannierMinimizerFD.cpp:324 `Mnn`. -/
def Mnn (i j n : ℕ) : ℂ := Mat s i j n n * Tnn s j n

/-- WannierMinimizerFD.cpp:326: `rExpect` with the origin at the pinned position. -/
def rExp0 (n : ℕ) : V3 ℝ := ∑ i ∈ range s.nk, ∑ j ∈ range s.nEdge, -(((s.k i).weight * s.wb j * (Mnn s i j n).arg) • s.b j)

/-- WannierMinimizerFD.cpp:327: `rSqExpect` with the origin at the pinned position. -/
def rSq0 (n : ℕ) : ℝ := ∑ i ∈ range s.nk, ∑ j ∈ range s.nEdge,
  (s.k i).weight * s.wb j * ((Mnn s i j n).arg * (Mnn s i j n).arg + 1 - Complex.normSq (Mnn s i j n))

/-- WannierMinimizerFD.cpp:338 `r0_n`, and 340 `mHalf_Omega_rExpect`. -/
def r0 (n : ℕ) : V3 ℝ := if s.pinned n then 0 else rExp0 s n

/-- WannierMinimizerFD.cpp:305-347 `getOmega`: the result. -/
def Omega : ℝ := ∑ n ∈ range s.nCenters, (rSq0 s n - 2 * dot (rExp0 s n) (r0 s n) + CellMap.lenSq (r0 s n))

/-- WannierMinimizerFD.cpp:343: `rExpect` as stored. -/
def rExpect (n : ℕ) : V3 ℝ := rExp0 s n + s.rPinned n

/-- WannierMinimizerFD.cpp:342,344: `rSqExpect` as stored. -/
def rSqExpect (n : ℕ) : ℝ := rSq0 s n - CellMap.lenSq (rExp0 s n) + CellMap.lenSq (rExpect s n)

/-- WannierMinimizerFD.cpp:359-365 `Omega_M` (diagonal). -/
def OmegaM (i j n : ℕ) : ℂ :=
  2 * (s.k i).weight * s.wb j * Tnn s j n * (((Mnn s i j n).arg + dot (r0 s n) (s.b j) : ℝ) * (-Complex.I) / Mnn s i j n - conj (Mnn s i j n))

/-- WannierMinimizerFD.cpp:367-368 with WannierMinimizer.cpp:108: `Omega_UdotU` of k-point `l` (nCenters x nIn), as the sum of the contributions of all edges that start
or end there. -/
def OmegaUdotU (l : ℕ) : CM := fun a c => ∑ i ∈ range s.nk, ∑ j ∈ range s.nEdge,
  ((if i = l then conj (Mat s i j c a * OmegaM s i j a) else 0) + (if s.nbr i j = l then OmegaM s i j a * Mat s i j a c else 0))

/-- WannierMinimizer.cpp:126 `Omega_B` (nIn x nIn) from `Omega_UdotU`. -/
def OmegaB (dU : ℕ → CM) (l : ℕ) : CM := fun a c =>
  (1 / 2 * Complex.I) * mul (s.k l).nIn (mul s.nCenters (s.k l).U2 (dU l)) (dag (s.k l).U2) a c

/-- WannierMinimizer.cpp:125-131: the gradient. -/
def toGrad (dU : ℕ → CM) : Grad where
  B1 l := sub (OmegaB s dU l) (s.k l).nFixed s.nCenters
  B2 l := fun a c => sub (OmegaB s dU l) s.nFrozen s.nFrozen a c + dag (sub (OmegaB s dU l) s.nFrozen s.nFrozen) a c

/-- WannierMinimizer.cpp:106-136 `compute`: the gradient of `getOmega`. -/
def grad : Grad := toGrad s (OmegaUdotU s)

/-- WannierMinimizer.cpp:36-45 `dot`. -/
def gdot (x y : Grad) : ℝ := ∑ l ∈ range s.nk,
  ((if s.nCenters < (s.k l).nIn then
      (∑ a ∈ range (s.nCenters - (s.k l).nFixed), ∑ c ∈ range ((s.k l).nIn - s.nCenters), conj (x.B1 l a c) * y.B1 l a c).re * 2 else 0)
    + (∑ a ∈ range (s.nCenters - s.nFrozen), ∑ c ∈ range (s.nCenters - s.nFrozen), conj (x.B2 l a c) * y.B2 l a c).re)

/-- WannierMinimizer.cpp:76-80: the Hermitian matrix `B1` (nFreeIn x nFreeIn). -/
def herm (nFree nFreeIn : ℕ) (B : CM) : CM := set (set (fun _ _ => 0) 0 nFree nFree nFreeIn B) nFree nFreeIn 0 nFree (dag B)

/-- WannierMinimizer.cpp:72-86: body of the loop in `step`. -/
def stepEntry (d : ∀ n, Diag n) (g : Grad) (α : ℝ) (l : ℕ) (e : Entry) : Entry :=
  let U1 := if s.nCenters < e.nIn then
      set e.U1 0 s.nBands e.nFixed e.nIn (mul (e.nIn - e.nFixed) (sub e.U1 0 e.nFixed)
        (cisN d (e.nIn - e.nFixed) (herm (s.nCenters - e.nFixed) (e.nIn - e.nFixed) fun a c => α * g.B1 l a c)))
    else e.U1
  let U2 := set e.U2 s.nFrozen s.nCenters s.nFrozen s.nCenters
    (mul (s.nCenters - s.nFrozen) (cisN d (s.nCenters - s.nFrozen) fun a c => α * g.B2 l a c) (sub e.U2 s.nFrozen s.nFrozen))
  { e with U1 := U1, U2 := U2, U := mul e.nIn U1 U2 }

/-- WannierMinimizer.cpp:69-89 `step`. -/
def step (d : ∀ n, Diag n) (g : Grad) (α : ℝ) : Sys := { s with k := fun l => stepEntry s d g α l (s.k l) }

/-- WannierMinimizerFD.cpp:373-393 `getOmegaI`: the result. -/
def OmegaI : ℝ := ∑ i ∈ range s.nk, ∑ j ∈ range s.nEdge,
  (s.k i).weight * s.wb j * (s.nCenters - (∑ a ∈ range s.nCenters, mul s.nCenters (Mat s i j) (dag (Mat s i j)) a a).re)

/-- WannierMinimizerFD.cpp:385-388: `Omega_UdotU` of k-point `l` for `getOmegaI`. -/
def OmegaIUdotU (l : ℕ) : CM := fun a c => ∑ i ∈ range s.nk, ∑ j ∈ range s.nEdge,
  let OM : CM := fun x y => 2 * (s.k i).weight * s.wb j * -dag (Mat s i j) x y
  ((if i = l then dag (mul s.nCenters (Mat s i j) OM) a c else 0) + (if s.nbr i j = l then mul s.nCenters OM (Mat s i j) a c else 0))

/-- The gradient of `getOmegaI`, propagated as in WannierMinimizer.cpp:125-131. -/
def gradI : Grad := toGrad s (OmegaIUdotU s)

end
end Jdftx.Wan
