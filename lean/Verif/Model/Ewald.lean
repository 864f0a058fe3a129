import Verif.Model.Mat3
import Verif.Model.Basis
import Verif.Model.WignerSeitz
import Verif.Model.Smear
import Verif.Model.Outcome
import Mathlib.Data.Complex.Basic
import Mathlib.Analysis.Complex.Trigonometric
import Mathlib.Algebra.BigOperators.Fin
import Mathlib.Order.Interval.Finset.Defs
import Mathlib.Data.Int.Interval
import Mathlib.Data.Fintype.Pi

/-!
# Model of the ion-ion sums (jdftx/core/CoulombPeriodic.cpp, CoulombSlab.cpp, CoulombIsolated.cpp)

Exact real arithmetic. The nested accumulation loops are written as finite sums: the order of the additions does not
matter in exact arithmetic. Atoms are numbered by `Fin n`; `Z` are the charges and `pos` the lattice coordinates.
The Gaussian width and the numbers of cells are parameters: the constructors (CoulombPeriodic.cpp:34-58,
CoulombSlab.cpp:36-60) choose values for them from the lattice, the sums are well defined for all of them.
Forces are added to forces that are already there; the model returns the contribution.
-/
namespace Jdftx.Ewald
noncomputable section
open M3

/-- Members of `EwaldPeriodic` and `EwaldSlab` (CoulombPeriodic.cpp:28-31, CoulombSlab.cpp:28-33). -/
structure Params where
  R : Mat ℝ
  sigma : ℝ
  Nreal : Fin 3 → Nat
  Nrecip : Fin 3 → Nat

/-- What `energyAndGrad` returns: the energy, the force added to each atom and the matrix added to `*E_RRTptr`. -/
structure Out (n : Nat) where
  E : ℝ
  force : Fin n → V3 ℝ
  stress : Mat ℝ

/-- The three nested loops over `iR` or `iG`, from `-N[k]` to `N[k]` in each direction. -/
def cells (N : Fin 3 → Nat) : Finset (Fin 3 → Int) := Fintype.piFinset fun k => Finset.Icc (-(N k : Int)) (N k)

/-- Implicit conversion of `vector3<int>`. -/
def toR (v : Fin 3 → Int) : V3 ℝ := fun k => (v k : ℝ)

/-- matrix3.h:170-176 `outer`. -/
def outer (a b : V3 ℝ) : Mat ℝ := fun i j => a i * b j

/-- `RTR((~R)*R)`. -/
def RTR (p : Params) : Mat ℝ := mulMM (transpose p.R) p.R
/-- `GGT(G*(~G))` with `G((2*M_PI)*inv(R))`. -/
def GGT (p : Params) : Mat ℝ := Basis.GGT p.R

/-- CoulombPeriodic.cpp:61. -/
def eta (p : Params) : ℝ := Real.sqrt 0.5 / p.sigma

/-- CoulombPeriodic.cpp:63 `detR`. -/
def detR (p : Params) : ℝ := |det p.R|

/-- CoulombPeriodic.cpp:91, `x = iR + (a1.pos - a2.pos)`. -/
def sep (iR : Fin 3 → Int) (p1 p2 : V3 ℝ) : V3 ℝ := fun k => toR iR k + (p1 k - p2 k)

open Classical in
/-- CoulombPeriodic.cpp:92-95 (= CoulombSlab.cpp:94-97): what one turn of the real-space loop adds to `E`. -/
def realE (p : Params) (Z1 Z2 : ℝ) (x : V3 ℝ) : ℝ :=
  let rSq := metricLengthSq (RTR p) x
  if rSq = 0 then 0 else
  let r := Real.sqrt rSq
  0.5 * Z1 * Z2 * Smear.erfc (eta p * r) / r

/-- CoulombPeriodic.cpp:96 (= CoulombSlab.cpp:98) `minus_E_r_by_r`. -/
def minusErByR (p : Params) (Z1 Z2 rSq : ℝ) : ℝ :=
  let r := Real.sqrt rSq
  Z1 * Z2 * (Smear.erfc (eta p * r) / r + (2 / Real.sqrt Real.pi) * eta p * Real.exp (-(eta p * eta p) * rSq)) / rSq

open Classical in
/-- CoulombPeriodic.cpp:92-97: what one turn of the real-space loop adds to `a1.force`. -/
def realF (p : Params) (Z1 Z2 : ℝ) (x : V3 ℝ) : V3 ℝ :=
  let rSq := metricLengthSq (RTR p) x
  if rSq = 0 then 0 else fun k => mulMV (RTR p) x k * minusErByR p Z1 Z2 rSq

open Classical in
/-- CoulombPeriodic.cpp:92-101: what one turn of the real-space loop adds to `E_RRT`. -/
def realS (p : Params) (Z1 Z2 : ℝ) (x : V3 ℝ) : Mat ℝ :=
  let rSq := metricLengthSq (RTR p) x
  if rSq = 0 then 0 else
  let rVec := mulMV p.R x
  fun i j => -((0.5 * minusErByR p Z1 Z2 rSq) * outer rVec rVec i j)

/-- `cis(-2*M_PI*dot(iG,a.pos))`. -/
def phase (iG : Fin 3 → Int) (pos : V3 ℝ) : ℂ :=
  ⟨Real.cos (-2 * Real.pi * dot (toR iG) pos), Real.sin (-2 * Real.pi * dot (toR iG) pos)⟩

/-- CoulombPeriodic.cpp:113-115: structure factor. -/
def SG {n : Nat} (Z : Fin n → ℝ) (pos : Fin n → V3 ℝ) (iG : Fin 3 → Int) : ℂ :=
  ∑ a, (Z a : ℂ) * phase iG (pos a)

/-- CoulombPeriodic.cpp:110. -/
def Gsq (p : Params) (iG : Fin 3 → Int) : ℝ := metricLengthSq (GGT p) (toR iG)

/-- CoulombPeriodic.cpp:117 `eG`. -/
def eG (p : Params) (iG : Fin 3 → Int) : ℝ :=
  4 * Real.pi * Real.exp (-0.5 * (p.sigma * p.sigma) * Gsq p iG) / (Gsq p iG * detR p)

open Classical in
/-- CoulombPeriodic.cpp:110-118: what one turn of the reciprocal-space loop adds to `E`. -/
def recipE {n : Nat} (p : Params) (Z : Fin n → ℝ) (pos : Fin n → V3 ℝ) (iG : Fin 3 → Int) : ℝ :=
  if Gsq p iG = 0 then 0 else 0.5 * eG p iG * Complex.normSq (SG Z pos iG)

open Classical in
/-- CoulombPeriodic.cpp:110-121: what one turn of the reciprocal-space loop adds to the force on atom `a`. -/
def recipF {n : Nat} (p : Params) (Z : Fin n → ℝ) (pos : Fin n → V3 ℝ) (iG : Fin 3 → Int) (a : Fin n) : V3 ℝ :=
  if Gsq p iG = 0 then 0 else fun k =>
    -((eG p iG * Z a * 2 * Real.pi * ((starRingEnd ℂ) (SG Z pos iG) * phase iG (pos a)).im) * toR iG k)

open Classical in
/-- CoulombPeriodic.cpp:110-127: what one turn of the reciprocal-space loop adds to `E_RRT`. -/
def recipS {n : Nat} (p : Params) (Z : Fin n → ℝ) (pos : Fin n → V3 ℝ) (iG : Fin 3 → Int) : Mat ℝ :=
  if Gsq p iG = 0 then 0 else
  let Gcart := mulVM (toR iG) (Basis.G p.R)
  let minus_eGprime_by_G := eG p iG * (p.sigma * p.sigma + 2 / Gsq p iG)
  fun i j => (0.5 * Complex.normSq (SG Z pos iG)) * (minus_eGprime_by_G * outer Gcart Gcart i j - eG p iG * diag 1 1 1 i j)

/-- CoulombPeriodic.cpp:79-81: the coordinate moved into `[-1/2,1/2)`. -/
def wrap (x : ℝ) : ℝ := x - ⌊0.5 + x⌋

open Classical in
/-- CoulombPeriodic.cpp:60-132 `EwaldPeriodic::energyAndGrad`. -/
def periodic {n : Nat} (p : Params) (Z : Fin n → ℝ) (pos0 : Fin n → V3 ℝ) : Out n :=
  let Ztot := ∑ a, Z a
  let ZsqTot := ∑ a, Z a * Z a
  let pos := fun a k => wrap (pos0 a k)
  if ZsqTot = 0 then { E := 0, force := 0, stress := 0 } else
  { E := 0.5 * 4 * Real.pi * Ztot * Ztot * (-0.5 * (p.sigma * p.sigma)) / detR p
        - 0.5 * ZsqTot * eta p * (2 / Real.sqrt Real.pi)
      + (∑ a2, ∑ a1, ∑ iR ∈ cells p.Nreal, realE p (Z a1) (Z a2) (sep iR (pos a1) (pos a2)))
      + ∑ iG ∈ cells p.Nrecip, recipE p Z pos iG
    force := fun a k =>
      (∑ a2, ∑ iR ∈ cells p.Nreal, realF p (Z a) (Z a2) (sep iR (pos a) (pos a2)) k)
      + ∑ iG ∈ cells p.Nrecip, recipF p Z pos iG a k
    stress := fun i j =>
      (-0.5 * 4 * Real.pi * Ztot * Ztot * (-0.5 * (p.sigma * p.sigma)) / detR p) * diag 1 1 1 i j
      + (∑ a2, ∑ a1, ∑ iR ∈ cells p.Nreal, realS p (Z a1) (Z a2) (sep iR (pos a1) (pos a2)) i j)
      + ∑ iG ∈ cells p.Nrecip, recipS p Z pos iG i j }

/-! ## Slab: two periodic directions -/

/-- CoulombSlab.cpp:107 `L`. -/
def slabL (p : Params) (iDir : Fin 3) : ℝ := Real.sqrt (RTR p iDir iDir)

/-- CoulombSlab.cpp:108 `volPrefac`. -/
def volPrefac (p : Params) (iDir : Fin 3) : ℝ := Real.pi * slabL p iDir / |det p.R|

/-- CoulombSlab.cpp:129-134: `zTerm` of a vector `G` of nonzero length. -/
def zTermG (p : Params) (G z12 : ℝ) : ℝ :=
  let expPlus := Real.exp (G * z12)
  let expMinus := 1 / expPlus
  let erfcPlus := Smear.erfc (eta p * (p.sigma * p.sigma * G + z12))
  let erfcMinus := Smear.erfc (eta p * (p.sigma * p.sigma * G - z12))
  0.5 / G * (expPlus * erfcPlus + expMinus * erfcMinus)

/-- CoulombSlab.cpp:129-135: `zTermPrime` of a vector `G` of nonzero length. -/
def zTermPrimeG (p : Params) (G z12 : ℝ) : ℝ :=
  let expPlus := Real.exp (G * z12)
  let expMinus := 1 / expPlus
  let erfcPlus := Smear.erfc (eta p * (p.sigma * p.sigma * G + z12))
  let erfcMinus := Smear.erfc (eta p * (p.sigma * p.sigma * G - z12))
  0.5 * (expPlus * erfcPlus - expMinus * erfcMinus)

/-- `erf` of the C library. -/
def erf (x : ℝ) : ℝ := 1 - Smear.erfc x

/-- CoulombSlab.cpp:140-142: `zTerm` of `G = 0`; `etaSqrtPiInv` is line 64. -/
def zTerm0 (p : Params) (z12 : ℝ) : ℝ :=
  -z12 * erf (eta p * z12) - 1 / (eta p * Real.sqrt Real.pi) * Real.exp (-(eta p * eta p) * z12 * z12)

/-- CoulombSlab.cpp:140-143: `zTermPrime` of `G = 0`. -/
def zTermPrime0 (p : Params) (z12 : ℝ) : ℝ := -erf (eta p * z12)

open Classical in
/-- CoulombSlab.cpp:123-146: what one turn of the reciprocal-space loop adds to `E12`. -/
def slabE (p : Params) (iDir : Fin 3) (prefac : ℝ) (r12 : V3 ℝ) (iG : Fin 3 → Int) : ℝ :=
  let c := Real.cos (2 * Real.pi * dot (toR iG) r12)
  let z12 := slabL p iDir * r12 iDir
  if Gsq p iG ≠ 0 then
    let G := Real.sqrt (Gsq p iG)
    if 100 < |G * z12| then 0 else prefac * c * zTermG p G z12
  else prefac * c * zTerm0 p z12

open Classical in
/-- CoulombSlab.cpp:123-148: what one turn of the reciprocal-space loop adds to `E12_r12`. -/
def slabG (p : Params) (iDir : Fin 3) (prefac : ℝ) (r12 : V3 ℝ) (iG : Fin 3 → Int) : V3 ℝ :=
  let c := Real.cos (2 * Real.pi * dot (toR iG) r12)
  let s := Real.sin (2 * Real.pi * dot (toR iG) r12)
  let L := slabL p iDir
  let z12 := L * r12 iDir
  let upd := fun (zTerm zTermPrime : ℝ) (k : Fin 3) =>
    (prefac * -s * zTerm * (2 * Real.pi)) * toR iG k + (if k = iDir then prefac * c * zTermPrime * L else 0)
  if Gsq p iG ≠ 0 then
    let G := Real.sqrt (Gsq p iG)
    if 100 < |G * z12| then 0 else upd (zTermG p G z12) (zTermPrimeG p G z12)
  else upd (zTerm0 p z12) (zTermPrime0 p z12)

/-- CoulombSlab.cpp:136-137: `minus_zTerm_G_by_G` of a vector of nonzero length `G`. -/
def minusZtermGbyG (p : Params) (G z12 : ℝ) : ℝ :=
  (zTermG p G z12 - z12 * zTermPrimeG p G z12
    + p.sigma * Real.sqrt (2 / Real.pi) * Real.exp (-(0.5 * (p.sigma * p.sigma) * (G * G) + eta p * eta p * z12 * z12))) / (G * G)

open Classical in
/-- CoulombSlab.cpp:123-152: what one turn of the reciprocal-space loop adds to `E_RRT` (factor of `outer(Gcart,Gcart)`). -/
def slabSG (p : Params) (iDir : Fin 3) (prefac : ℝ) (r12 : V3 ℝ) (iG : Fin 3 → Int) : ℝ :=
  let c := Real.cos (2 * Real.pi * dot (toR iG) r12)
  let z12 := slabL p iDir * r12 iDir
  if Gsq p iG ≠ 0 then
    let G := Real.sqrt (Gsq p iG)
    if 100 < |G * z12| then 0 else prefac * c * minusZtermGbyG p G z12
  else prefac * c * 0

open Classical in
/-- CoulombSlab.cpp:123-153: what one turn of the reciprocal-space loop adds to `E_RRTzz`. -/
def slabSz (p : Params) (iDir : Fin 3) (prefac : ℝ) (r12 : V3 ℝ) (iG : Fin 3 → Int) : ℝ :=
  let c := Real.cos (2 * Real.pi * dot (toR iG) r12)
  let z12 := slabL p iDir * r12 iDir
  if Gsq p iG ≠ 0 then
    let G := Real.sqrt (Gsq p iG)
    if 100 < |G * z12| then 0 else prefac * c * zTermPrimeG p G z12 * z12
  else prefac * c * zTermPrime0 p z12 * z12

/-- CoulombSlab.cpp:169: unit vector along the truncated direction. -/
def zHat (p : Params) (iDir : Fin 3) : V3 ℝ := fun k => column p.R iDir k * (1 / Basis.length (column p.R iDir))

/-- CoulombSlab.cpp:79-83: coordinates moved into the unit cell, the truncated one into the cell centred on atom 0. -/
def slabWrap {n : Nat} (iDir : Fin 3) (ref : ℝ) (pos0 : Fin n → V3 ℝ) : Fin n → V3 ℝ := fun a k =>
  pos0 a k - ⌊0.5 + pos0 a k - (if k = iDir then ref else 0)⌋

/-- CoulombSlab.cpp:113 `prefac`. -/
def prefac {n : Nat} (p : Params) (iDir : Fin 3) (Z : Fin n → ℝ) (i1 i2 : Fin n) : ℝ :=
  volPrefac p iDir * Z i1 * Z i2 * (if i1 = i2 then 1 else 2)

open Classical in
/-- CoulombSlab.cpp:62-175 `EwaldSlab::energyAndGrad`. The pair loop runs over
`i2 <= i1`; the gradient of each pair is taken from the force on `i1` and added to the force on `i2`. The margin check of
all pairs comes before the sums instead of being interleaved: a failed check ends the program. -/
def slab {n : Nat} (p : Params) (iDir : Fin 3) (ionMargin : ℝ) (Z : Fin (n + 1) → ℝ) (pos0 : Fin (n + 1) → V3 ℝ) :
    Res (Out (n + 1)) :=
  let ZsqTot := ∑ a, Z a * Z a
  let pos := slabWrap iDir (pos0 0 iDir) pos0
  let L := slabL p iDir
  let r12 := fun (i1 i2 : Fin (n + 1)) (k : Fin 3) => pos i1 k - pos i2 k
  if ZsqTot = 0 then .ok { E := 0, force := 0, stress := 0 } else
  if ∃ i1 i2, i2 ≤ i1 ∧ 0.5 * L - ionMargin ≤ |L * r12 i1 i2 iDir| then .error .die else
  let g := fun (i1 i2 : Fin (n + 1)) (k : Fin 3) => ∑ iG ∈ cells p.Nrecip, slabG p iDir (prefac p iDir Z i1 i2) (r12 i1 i2) iG k
  let E12 := fun i1 i2 => ∑ iG ∈ cells p.Nrecip, slabE p iDir (prefac p iDir Z i1 i2) (r12 i1 i2) iG
  let E_RRTzz := ∑ i1, ∑ i2, if i2 ≤ i1 then (∑ iG ∈ cells p.Nrecip, slabSz p iDir (prefac p iDir Z i1 i2) (r12 i1 i2) iG) + E12 i1 i2 else 0
  .ok {
    E := -0.5 * ZsqTot * eta p * (2 / Real.sqrt Real.pi)
      + (∑ a2, ∑ a1, ∑ iR ∈ cells p.Nreal, realE p (Z a1) (Z a2) (sep iR (pos a1) (pos a2)))
      + ∑ i1, ∑ i2, if i2 ≤ i1 then E12 i1 i2 else 0
    force := fun a k =>
      (∑ a2, ∑ iR ∈ cells p.Nreal, realF p (Z a) (Z a2) (sep iR (pos a) (pos a2)) k)
      + ∑ i1, ∑ i2, if i2 ≤ i1 then (if a = i1 then -g i1 i2 k else 0) + (if a = i2 then g i1 i2 k else 0) else 0
    stress := fun i j =>
      (∑ a2, ∑ a1, ∑ iR ∈ cells p.Nreal, realS p (Z a1) (Z a2) (sep iR (pos a1) (pos a2)) i j)
      + (∑ i1, ∑ i2, if i2 ≤ i1 then
          (∑ iG ∈ cells p.Nrecip, slabSG p iDir (prefac p iDir Z i1 i2) (r12 i1 i2) iG * outer (mulVM (toR iG) (Basis.G p.R)) (mulVM (toR iG) (Basis.G p.R)) i j)
            - E12 i1 i2 * diag 1 1 1 i j else 0)
      + E_RRTzz * outer (zHat p iDir) (zHat p iDir) i j }

/-! ## Isolated systems -/

/-- What the two kinds of truncation check (CoulombIsolated.cpp:57-64): a cutoff radius, or the distance to the boundary of
the Wigner-Seitz cell. -/
def tooFar (p : Params) (boundaryDistance : V3 ℝ → ℝ) (ionMargin Rc : ℝ) (x : V3 ℝ) : Prop :=
  if Rc ≠ 0 then Rc - ionMargin ≤ Real.sqrt (metricLengthSq (RTR p) x) else boundaryDistance x ≤ ionMargin

open Classical in
/-- CoulombIsolated.cpp:41-77 `EwaldIsolated::energyAndGrad`. `reduce` and `boundaryDistance` are the functions of the
Wigner-Seitz cell (C28). The checks of all pairs come before the sums. Two atoms at one point divide by zero: the model
stops with `ub`. -/
def isolated {n : Nat} (p : Params) (reduce : V3 ℝ → V3 ℝ) (boundaryDistance : V3 ℝ → ℝ) (ionMargin Rc : ℝ)
    (Z : Fin (n + 1) → ℝ) (pos0 : Fin (n + 1) → V3 ℝ) : Res (Out (n + 1)) :=
  let pos := fun a k => pos0 0 k + reduce (fun k => pos0 a k - pos0 0 k) k
  let x := fun (i j : Fin (n + 1)) (k : Fin 3) => pos i k - pos j k
  let rSq := fun i j => metricLengthSq (RTR p) (x i j)
  let dE := fun i j => Z i * Z j / Real.sqrt (rSq i j)
  let m := fun i j => dE i j / rSq i j
  let dF := fun (i j : Fin (n + 1)) (k : Fin 3) => mulMV (RTR p) (x i j) k * m i j
  if ∃ i j, j < i ∧ tooFar p boundaryDistance ionMargin Rc (x i j) then .error .die else
  if ∃ i j, j < i ∧ rSq i j = 0 then .error .ub else
  .ok {
    E := ∑ i, ∑ j, if j < i then dE i j else 0
    force := fun a k => ∑ i, ∑ j, if j < i then (if a = i then dF i j k else 0) + (if a = j then -dF i j k else 0) else 0
    stress := fun r s => ∑ i, ∑ j, if j < i then -(m i j * outer (mulMV p.R (x i j)) (mulMV p.R (x i j)) r s) else 0 }

end
end Jdftx.Ewald
