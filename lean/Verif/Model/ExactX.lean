import Verif.Model.SpaceGroup
import Verif.Model.PeriodicLookup
import Verif.Model.Euler
import Verif.Model.MatFunc
import Verif.Model.Outcome
import Mathlib.Data.Finsupp.Basic
import Mathlib.Algebra.BigOperators.Finprod
import Mathlib.Algebra.BigOperators.Fin

/-!
# Model of exact exchange (jdftx/electronic/ExactExchange.cpp)

Exact arithmetic, one component per orbital (`nSpinor` = 1). Orbitals are finite sums of plane waves; products of orbitals are not aliased on the FFT grid.
Not modelled: the stress, the RPA mode, the dense Hamiltonian, progress reports.
-/
namespace Jdftx.EXX
open M3
noncomputable section

/-! ### Division of bands over processes (lines 395-437) -/

/-- Lines 400-407 `jCostPrev`: cumulative costs before each band; `jCost` is the cost of a band of each reduced k-point. -/
def costPrev (jCost : List Nat) (nB : Nat) : List Nat :=
  (jCost.flatMap fun c => List.replicate nB c).scanl (· + ·) 0

/-- `std::lower_bound` on a sorted list: the first position whose entry is not below the target. -/
def lowerBound (l : List Nat) (target : Nat) : Nat := l.findIdx fun x => decide (¬ x < target)

/-- Lines 410-411: the first band of a process, counted through all k-points. -/
def startIndex (jCost : List Nat) (nB nProc jProc : Nat) : Nat :=
  lowerBound (costPrev jCost nB) ((jProc * (costPrev jCost nB).getLastD 0) / nProc)

/-- A chunk of bands (`LocalState`, lines 85-90). -/
structure Chunk where
  iq : Nat
  bStart : Nat
  bStop : Nat
deriving DecidableEq, Repr

/-- Lines 413-414, 420-428: the chunks of a process. -/
def chunks (jCost : List Nat) (nB nProc jProc : Nat) : List Chunk :=
  let i0 := startIndex jCost nB nProc jProc
  let i1 := startIndex jCost nB nProc (jProc + 1)
  let iq0 := i0 / nB
  let b0 := i0 - iq0 * nB
  let iq1 := i1 / nB
  let b1 := i1 - iq1 * nB
  (List.range (iq1 - iq0 + if b1 = 0 then 0 else 1)).map fun iLocal =>
    let iq := iq0 + iLocal
    ⟨iq, if iq = iq0 then b0 else 0, if iq = iq1 then b1 else nB⟩

/-- Line 472, `diagMatrix::operator()` (matrix.cpp:33-40) with its assertions: the occupations of a chunk, on the process that has the state. -/
def fillingsOf {α : Type} (F : List α) (c : Chunk) : Res (List α) :=
  if c.bStart < F.length ∧ c.bStart < c.bStop ∧ c.bStop ≤ F.length then .ok ((F.drop c.bStart).take (c.bStop - c.bStart)) else .error .die

/-! ### Reduction of pairs of k-points (lines 238-368) -/

/-- `Ktransform` (line 253), without the multiplicity. -/
structure KT where
  op : Op ℝ
  invert : Int

/-- Lines 254-258 `operator==`. -/
def KT.same (thr : ℝ) (s t : KT) : Prop :=
  s.invert = t.invert ∧ s.op.rot = t.op.rot ∧ PL.circDistanceSquared s.op.a t.op.a < thr

/-- Lines 275-277: the net transform. -/
def KT.net (ti tj : KT) : KT := ⟨ti.op.mul tj.op.inv, ti.invert * tj.invert⟩

/-- Lines 278-290: one more of the first transform in the list that is the same, or a new one. -/
def addUnique (thr : ℝ) : List (KT × Nat) → KT → List (KT × Nat)
  | [], t => [(t, 1)]
  | (s, m) :: l, t => open Classical in if s.same thr t then (s, m + 1) :: l else (s, m) :: addUnique thr l t

/-- A mesh of k-points: for each, the reduced point (`iReduced`) and the transforms to it (`KmeshEntry`, line 260). -/
structure Kmesh where
  n : Nat
  iReduced : Nat → Nat
  transform : Nat → List KT

/-- The transform that is chosen for a k-point. -/
def Kmesh.pick (m : Kmesh) (choice : Nat → Nat) (ik : Nat) : KT := (m.transform ik).getD (choice ik) ⟨Op.one, 1⟩

/-- Lists of transforms for each pair of reduced points. -/
abbrev Pairs := Nat → Nat → List (KT × Nat)

/-- Lines 265-296 `score`: unique transforms of each pair of reduced points. -/
def Kmesh.pairs (m : Kmesh) (thr : ℝ) (choice : Nat → Nat) : Pairs :=
  ((List.range m.n).flatMap fun ik => (List.range m.n).map fun jk => (ik, jk)).foldl
    (fun tr p => fun a b => if a = m.iReduced p.1 ∧ b = m.iReduced p.2 then addUnique thr (tr a b) ((m.pick choice p.1).net (m.pick choice p.2)) else tr a b)
    fun _ _ => []

/-- Lines 265-296 `score`: what it returns, the number of unique transforms. -/
def Kmesh.score (m : Kmesh) (thr : ℝ) (Q : Nat) (choice : Nat → Nat) : Nat :=
  ∑ a ∈ Finset.range Q, ∑ b ∈ Finset.range Q, (m.pairs thr choice a b).length

/-- One step of the optimization that is not null: the k-point, its new choice, and the random number. -/
structure Step where
  ik : Nat
  choice : Nat
  u : ℝ

/-- State of the optimization. -/
structure Anneal where
  choices : Nat → Nat
  score : Nat
  best : Nat → Nat
  bestScore : Nat

/-- Lines 344-359: one step. -/
def Kmesh.step (m : Kmesh) (thr : ℝ) (Q : Nat) (s : Anneal) (r : Step) : Anneal :=
  let new := Function.update s.choices r.ik r.choice
  let newScore := m.score thr Q new
  let s := if newScore < s.bestScore then { s with bestScore := newScore, best := new } else s
  open Classical in if r.u < Real.exp (s.score - newScore) then { s with score := newScore, choices := new } else s

/-- Lines 324-361 on one process: `first` are the random initial choices of lines 329-333. The best choices start from zero (line 327). -/
def Kmesh.anneal (m : Kmesh) (thr : ℝ) (Q : Nat) (first : Nat → Nat) (steps : List Step) : Anneal :=
  steps.foldl (m.step thr Q) ⟨first, m.score thr Q first, fun _ => 0, m.score thr Q first⟩

/-! ### Orbitals -/

/-- An orbital: its Bloch vector and the coefficients of plane waves. -/
structure Orb where
  k : V3 ℝ
  c : V3 Int → ℂ

/-- Complex conjugation for antiunitary transforms. -/
def conjIf (invert : Int) (z : ℂ) : ℂ := if invert < 0 then star z else z

/-- Lines 317, 374 for k, and the transform of the wavefunctions `ColumnBundleTransform` (ColumnBundleTransform.cpp:44-102; see the model ColTransform), written for the target coefficient:
the coefficient of the plane wave `g` becomes that of `invert g rot`. -/
def Orb.act (t : KT) (p : Orb) : Orb where
  k := fun i => t.invert * t.op.applyRecip p.k i
  c := fun h =>
    let g : V3 Int := fun i => t.invert * mulVM h t.op.inv.rot i
    conjIf t.invert (p.c g * Euler.cis (2 * Real.pi * dot (fun i => (g i : ℝ) + p.k i) t.op.a))

/-- Lines 621-624: the product of two orbitals in reciprocal space. -/
def pairDensity (p q : Orb) (G : V3 Int) : ℂ := ∑ᶠ g : V3 Int, star (p.c g) * q.c (fun i => g i + G i)

/-- Line 625: the interaction of the product with `d` and the product with `q`; `K` is the kernel with the volume. -/
def form (K : V3 ℝ → ℝ) (p d q : Orb) : ℂ :=
  ∑ᶠ G : V3 Int, (K (fun i => q.k i - p.k i + G i) : ℂ) * (star (pairDensity p d G) * pairDensity p q G)

/-! ### Energy and gradient (lines 444-645) -/

/-- The system. Indices of spin, reduced k-point and band are numbers. -/
structure Sys where
  nSpins : Nat
  Q : Nat
  nB : Nat
  k : Nat → V3 ℝ
  weight : Nat → ℝ
  K : V3 ℝ → ℝ
  spinWeight : ℝ
  aXX : ℝ
  nMesh : Nat
  kpairs : Pairs
  nProc : Nat

/-- Coefficients of orbitals of each spin, k-point and band. -/
abbrev Wfns := Nat → Nat → Nat → (V3 Int →₀ ℂ)
/-- Occupations of each spin, k-point and band. -/
abbrev Fill := Nat → Nat → Nat → ℝ

variable (S : Sys)

/-- Lines 372, 381 `jCost`: relative cost of a band of each reduced k-point. -/
def Sys.jCost : List Nat := (List.range S.Q).map fun jq => ((List.range S.Q).map fun iq => (S.kpairs iq jq).length).sum

/-- A reduced orbital. -/
def Sys.orb (C : Wfns) (s q b : Nat) : Orb := ⟨S.k q, C s q b⟩

/-- Lines 375, 605: the prefactor of a pair. -/
def Sys.prefac (mult : Nat) (wk wq : ℝ) : ℝ := -0.5 * S.aXX * (S.spinWeight * ((S.nMesh : ℝ) ^ 2)⁻¹ * mult) / (wk * wq)

/-- Lines 577-645 `computePair` for one band `b` of the chunk, energy. Bands are processed in blocks, one after another (line 588). -/
def Sys.pairEnergy (C : Wfns) (F : Fill) (s ik iq b : Nat) : ℝ :=
  ∑ bk ∈ Finset.range S.nB, ((S.kpairs ik iq).map fun kp =>
    let wFk := S.weight ik * F s ik bk
    let wFq := S.weight iq * F s iq b
    open Classical in if wFk = 0 ∧ wFq = 0 then 0 else
      S.prefac kp.2 (S.weight ik) (S.weight iq) * (wFk * wFq) * (form S.K ((S.orb C s ik bk).act kp.1) (S.orb C s iq b) (S.orb C s iq b)).re).sum

/-- Lines 626-630, 636-641: the gradient for one band `b` of the chunk. -/
def Sys.pairGrad (C : Wfns) (F : Fill) (s ik iq b : Nat) (G : V3 Int) : ℂ :=
  ∑ bk ∈ Finset.range S.nB, ((S.kpairs ik iq).map fun kp =>
    let wFk := S.weight ik * F s ik bk
    let wFq := S.weight iq * F s iq b
    let p := (S.orb C s ik bk).act kp.1
    let q := S.orb C s iq b
    open Classical in if wFk = 0 ∧ wFq = 0 then 0 else
      ((2 * S.prefac kp.2 (S.weight ik) (S.weight iq) * wFk : ℝ) : ℂ) *
        ∑ᶠ g : V3 Int, (S.K (fun i => q.k i - p.k i + ((G i - g i : Int) : ℝ)) : ℂ) * pairDensity p q (fun i => G i - g i) * p.c g).sum

/-- The chunks of all processes. -/
def Sys.allChunks : List Chunk := (List.range S.nProc).flatMap fun j => chunks S.jCost S.nB S.nProc j

/-- Lines 444-575 `compute`: the energy, with the sum over processes of line 569. -/
def Sys.energy (C : Wfns) (F : Fill) : ℝ :=
  ∑ s ∈ Finset.range S.nSpins, (S.allChunks.map fun c => ∑ ik ∈ Finset.range S.Q, ∑ b ∈ Finset.Ico c.bStart c.bStop, S.pairEnergy C F s ik c.iq b).sum

/-- Lines 534-566: the gradient that is accumulated in column `b` of `HC[iq]`. -/
def Sys.grad (C : Wfns) (F : Fill) (s iq b : Nat) (G : V3 Int) : ℂ :=
  (S.allChunks.map fun c => if c.iq = iq ∧ c.bStart ≤ b ∧ b < c.bStop then ∑ ik ∈ Finset.range S.Q, S.pairGrad C F s ik iq b G else 0).sum

end

/-! ### The compressed operator (lines 128-162) -/
section
open Matrix
noncomputable section
variable {N n : Nat}

/-- Lines 134-146 `prepareHamiltonian` for one state: the columns `psi`, from the orbitals `C` and the exchange operator (with the opposite sign) applied to them, `W`. -/
def ace (d : MatFunc.Diag n) (C W : Matrix (Fin N) (Fin n) ℂ) : Option (Matrix (Fin N) (Fin n) ℂ) :=
  (MatFunc.invsqrt d (Cᴴ * W) true).map fun r => W * r.value

/-- Line 160: what `applyHamiltonian` adds to `HC`. -/
def aceApply {m : Nat} (aXX : ℝ) (psi : Matrix (Fin N) (Fin n) ℂ) (X : Matrix (Fin N) (Fin m) ℂ) : Matrix (Fin N) (Fin m) ℂ :=
  -(aXX : ℂ) • (psi * (psiᴴ * X))

/-- Line 161: the energy. -/
def aceEnergy {m : Nat} (aXX weight : ℝ) (psi : Matrix (Fin N) (Fin n) ℂ) (F : Fin m → ℝ) (X : Matrix (Fin N) (Fin m) ℂ) : ℝ :=
  (-0.5 * aXX * weight) * ((psiᴴ * X) * diagonal (fun b => (F b : ℂ)) * (psiᴴ * X)ᴴ).trace.re

end
end
end Jdftx.EXX
