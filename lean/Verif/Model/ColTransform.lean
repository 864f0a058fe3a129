import Verif.Model.Outcome
import Verif.Model.Euler
import Mathlib.Algebra.Order.Round
import Mathlib.Algebra.Order.Archimedean.Real.Basic
import Mathlib.Logic.Function.Basic

/-!
# Model of symmetry transforms of wavefunctions (`ColumnBundleTransform`, jdftx/electronic/ColumnBundleTransform.cpp)

Exact real and complex arithmetic. The assertions on the lattice vectors (lines 49, 51) are not modelled; nothing below depends on them. A column
bundle is a function from memory offsets to complex numbers together with the number of its columns.
-/
noncomputable section
namespace Jdftx.ColT
open M3

/-- Lines 29-32: extent of the look-up table. -/
def iGbox (G : List (V3 Int)) : V3 Int := G.foldl (fun b g i => max (b i) |g i|) (fun _ => 0)

/-- Lines 34-36. -/
def pitch (b : V3 Int) : V3 Int := vec ((2 * b 2 + 1) * (2 * b 1 + 1)) (2 * b 2 + 1) 1

/-- Line 37: number of entries. -/
def tabSize (b : V3 Int) : Nat := (pitch b 0 * (2 * b 0 + 1)).toNat

/-- Lines 40, 62: position in the table. -/
def tabIndex (b g : V3 Int) : Int := dot (pitch b) (fun i => g i + b i)

/-- Lines 37-40: entries are -1, or the position of the vector in the basis. -/
def tableFrom (b : V3 Int) : List (V3 Int) → Nat → List Int → List Int
  | [], _, t => t
  | g :: l, n, t => tableFrom b l (n + 1) (t.set (tabIndex b g).toNat n)

/-- `BasisWrapper` (lines 27-41). -/
def table (G : List (V3 Int)) : List Int := tableFrom (iGbox G) G 0 (List.replicate (tabSize (iGbox G)) (-1))

/-- Line 62: reading outside the table is undefined. -/
def lookup (G : List (V3 Int)) (g : V3 Int) : Res Int :=
  if tabIndex (iGbox G) g < 0 then .error .ub
  else match (table G)[(tabIndex (iGbox G) g).toNat]? with
    | some n => .ok n
    | none => .error .ub

/-- Arguments of the constructor. -/
structure Inp where
  kC : V3 ℝ
  GC : List (V3 Int)
  kD : V3 ℝ
  GD : List (V3 Int)
  nSpinor : Nat
  rot : Mat Int
  a : V3 ℝ
  invert : Int
  super : Mat Int
  /-- rotation in Cartesian coordinates, `R * sym.rot * inv(R)` -/
  rotCart : Mat ℝ
  symmThreshold : ℝ

/-- Line 52. -/
def affine (p : Inp) : Mat Int := mulMM (smul p.invert p.rot) p.super

/-- Line 54, before rounding. -/
def kShift (p : Inp) : V3 ℝ := fun i => mulVM p.kC (castMat (affine p)) i - p.kD i

/-- Line 54: `offset`. -/
def offset (p : Inp) : V3 Int := fun i => round (kShift p i)

/-- Line 54: `offsetErr`. -/
def offsetErr (p : Inp) : ℝ := Real.sqrt (dot (fun i => kShift p i - offset p i) (fun i => kShift p i - offset p i))

/-- Line 61: corresponding D vector. -/
def image (p : Inp) (g : V3 Int) : V3 Int := fun i => mulVM g (affine p) i + offset p i

/-- Lines 67-72: translation phases, `none` for the null pointer. -/
def phases (p : Inp) : Option (List ℂ) :=
  if dot p.a p.a ≠ 0 then some (p.GC.map fun g => Euler.cis (2 * Real.pi * dot (fun i => (g i : ℝ) + p.kC i) p.a)) else none

/-- Lines 75-88: spinor matrix, `spinorRot(sD,sC)`. -/
def spinor (p : Inp) : Res (Nat → Nat → ℂ) :=
  match p.nSpinor with
  | 1 => .ok fun _ _ => 1
  | 2 => .ok fun i j => match i, j with
    | 0, 0 => Euler.spinorRot p.rotCart p.invert 0 0
    | 0, _ => Euler.spinorRot p.rotCart p.invert 0 1
    | _, 0 => Euler.spinorRot p.rotCart p.invert 1 0
    | _, _ => Euler.spinorRot p.rotCart p.invert 1 1
  | _ => .error .die

/-- The constructed transform. -/
structure Tr where
  nbC : Nat
  nbD : Nat
  nSpinor : Nat
  invert : Int
  index : List Int
  phase : Option (List ℂ)
  spinorRot : Nat → Nat → ℂ

/-- Constructor (lines 44-89). -/
def construct (p : Inp) : Res Tr := do
  if ¬ (p.invert = 1 ∨ p.invert = -1) then throw .die
  if ¬ offsetErr p < p.symmThreshold then throw .die
  let index ← p.GC.mapM fun g => lookup p.GD (image p g)
  if index = [] then throw .ub -- `*std::min_element` of nothing
  if index.any (fun n => decide (n < 0)) then throw .die
  let R ← spinor p
  return { nbC := p.GC.length, nbD := p.GD.length, nSpinor := p.nSpinor, invert := p.invert, index := index, phase := phases p, spinorRot := R }

/-- `Conjugator` (jdftx/core/BlasExtra_internal.h:31-37): `x` and `w` with the requested conjugations, and without a null `w`. -/
def conjugator (conjx conjw : Bool) (x : ℂ) (w : Option ℂ) : ℂ :=
  match w with
  | none => if conjx then star x else x
  | some w => (if conjx then star x else x) * (if conjw then star w else w)

/-- Memory: a complex number at each offset. -/
abbrev Mem := Nat → ℂ

/-- A list of accumulations `y[address] += value`, one after another. -/
def accum (y : Mem) (l : List (Nat × ℂ)) : Mem := l.foldl (fun y p => Function.update y p.1 (y p.1 + p.2)) y

/-- `w[i]`, if there are phases. -/
def phaseAt (t : Tr) (i : Nat) : Option ℂ := t.phase.map fun l => l.getD i 0

/-- Accumulations of `eblas_scatter_zaxpy` (BlasExtra.cpp:88-91; all threads together) called at ColumnBundleTransform.cpp:97-101. -/
def scatterList (t : Tr) (alpha : ℂ) (x : Mem) (xStart yStart : Nat) (sD sC : Nat) : List (Nat × ℂ) :=
  t.index.zipIdx.map fun n => (yStart + sD * t.nbD + n.1.toNat,
    alpha * t.spinorRot sD sC * conjugator (decide (t.invert < 0)) (decide (t.invert < 0)) (x (xStart + sC * t.nbC + n.2)) (phaseAt t n.2))

/-- `scatterAxpy` of one column (lines 91-102); `nC`, `nD` are the numbers of columns. The two assertions on column lengths hold by construction
here. -/
def scatter1 (t : Tr) (alpha : ℂ) (x : Mem) (nC bC : Nat) (y : Mem) (nD bD : Nat) : Res Mem :=
  if bC < nC ∧ bD < nD then
    .ok <| ((List.range t.nSpinor).flatMap fun sD => (List.range t.nSpinor).map fun sC => (sD, sC)).foldl
      (fun y s => accum y (scatterList t alpha x (bC * (t.nSpinor * t.nbC)) (bD * (t.nSpinor * t.nbD)) s.1 s.2)) y
  else .error .die

/-- Accumulations of `eblas_gather_zaxpy` (BlasExtra.cpp:92-95) called at ColumnBundleTransform.cpp:110-115; `spinorRotInv(sC,sD)` of line 109 is the
entry `(sD,sC)` of `spinorRot`, conjugated unless the transform is antiunitary. -/
def gatherList (t : Tr) (alpha : ℂ) (x : Mem) (xStart yStart : Nat) (sD sC : Nat) : List (Nat × ℂ) :=
  t.index.zipIdx.map fun n => (yStart + sC * t.nbC + n.2,
    alpha * (if t.invert < 0 then t.spinorRot sD sC else star (t.spinorRot sD sC)) *
      conjugator (decide (t.invert < 0)) true (x (xStart + sD * t.nbD + n.1.toNat)) (phaseAt t n.2))

/-- `gatherAxpy` of one column (lines 104-116). -/
def gather1 (t : Tr) (alpha : ℂ) (x : Mem) (nD bD : Nat) (y : Mem) (nC bC : Nat) : Res Mem :=
  if bC < nC ∧ bD < nD then
    .ok <| ((List.range t.nSpinor).flatMap fun sD => (List.range t.nSpinor).map fun sC => (sD, sC)).foldl
      (fun y s => accum y (gatherList t alpha x (bD * (t.nSpinor * t.nbD)) (bC * (t.nSpinor * t.nbC)) s.1 s.2)) y
  else .error .die

/-- `scatterAxpy` of all columns (lines 118-120). -/
def scatter (t : Tr) (alpha : ℂ) (x : Mem) (nC : Nat) (y : Mem) (nD bDstart bDstep : Nat) : Res Mem :=
  (List.range nC).foldlM (fun y bC => scatter1 t alpha x nC bC y nD (bDstart + bDstep * bC)) y

/-- `gatherAxpy` of all columns (lines 122-124). -/
def gather (t : Tr) (alpha : ℂ) (x : Mem) (nD bDstart bDstep : Nat) (y : Mem) (nC : Nat) : Res Mem :=
  (List.range nC).foldlM (fun y bC => gather1 t alpha x nD (bDstart + bDstep * bC) y nC bC) y

end Jdftx.ColT
