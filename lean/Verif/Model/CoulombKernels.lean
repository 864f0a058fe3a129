import Verif.Model.Ewald
import Verif.Model.Box
import Verif.Model.Outcome
import Mathlib.Analysis.SpecialFunctions.Pow.Real

/-!
# Model of the Coulomb and exchange kernels

jdftx/core/Coulomb_internal.h, Coulomb_internal.cpp, CoulombPeriodic.cpp, CoulombSlab.cpp, CoulombIsolated.cpp, Coulomb.cpp and
Coulomb_ExchangeEval.cpp. Exact real arithmetic. A `symmetricMatrix3` (matrix3.h:293-334) is written as the matrix it converts
to. The GPU versions of the loops and the wire, cylinder and Wigner-Seitz kernels (computed numerically) are not modelled; the
numerical quadrature and the spline tables of the screened truncated kernels are represented by the function they tabulate.
-/
namespace Jdftx.CoulK
noncomputable section
open M3 Ewald Real

/-- Coulomb_internal.h:41, 45, 57, ... `GGT.metric_length_squared(iG)`. -/
abbrev gsq (GGT : Mat ℝ) (v : V3 ℝ) : ℝ := metricLengthSq GGT v

/-- Scaling of a symmetric matrix (matrix3.h:319-321). -/
def scale (s : ℝ) (m : Mat ℝ) : Mat ℝ := fun i j => s * m i j

open Classical in
/-- Coulomb_internal.h:40-43 `CoulombPeriodic_calc::operator()`. -/
def periodic (GGT : Mat ℝ) (iG : Fin 3 → Int) : ℝ :=
  if gsq GGT (toR iG) ≠ 0 then 4 * π / gsq GGT (toR iG) else 0

open Classical in
/-- Coulomb_internal.h:44-47 `CoulombPeriodic_calc::latticeGradient`. -/
def periodicGrad (GGT : Mat ℝ) (iG : Fin 3 → Int) : Mat ℝ :=
  scale (if gsq GGT (toR iG) ≠ 0 then 8 * π / (gsq GGT (toR iG) * gsq GGT (toR iG)) else 0) (outer (toR iG) (toR iG))

open Classical in
/-- Coulomb_internal.h:55-57: `Gplane`, with the safe square root. -/
def gPlane (iDir : Fin 3) (GGT : Mat ℝ) (iG : Fin 3 → Int) : ℝ :=
  if 0 < gsq GGT (toR iG) - GGT iDir iDir * toR iG iDir * toR iG iDir
  then sqrt (gsq GGT (toR iG) - GGT iDir iDir * toR iG iDir * toR iG iDir) else 0

open Classical in
/-- Coulomb_internal.h:54-59 `CoulombSlab_calc::operator()`. -/
def slab (iDir : Fin 3) (hlfL : ℝ) (GGT : Mat ℝ) (iG : Fin 3 → Int) : ℝ :=
  4 * π * (if gsq GGT (toR iG) ≠ 0
    then (1 - exp (-(gPlane iDir GGT iG) * hlfL) * cos (π * toR iG iDir)) / gsq GGT (toR iG) else -0.5 * hlfL * hlfL)

/-- Coulomb_internal.h:64: `iGplane`. -/
def plane (iDir : Fin 3) (v : V3 ℝ) : V3 ℝ := fun k => if k = iDir then 0 else v k

/-- Coulomb_internal.h:72, 77: `((double*)&result)[iDir] = x`; the diagonal is stored first. -/
def setDiag (m : Mat ℝ) (iDir : Fin 3) (x : ℝ) : Mat ℝ := fun i j => if i = iDir ∧ j = iDir then x else m i j

open Classical in
/-- Coulomb_internal.h:60-80 `CoulombSlab_calc::latticeGradient`. -/
def slabGrad (iDir : Fin 3) (hlfL : ℝ) (GGT : Mat ℝ) (iG : Fin 3 → Int) : Mat ℝ :=
  let Gsq := gsq GGT (toR iG)
  if Gsq ≠ 0 then
    let GsqInv := 1 / Gsq
    let Gp := sqrt (gsq GGT (plane iDir (toR iG)))
    let GpInv := if Gp ≠ 0 then 1 / Gp else 0
    let expCosTerm := exp (-Gp * hlfL) * cos (π * toR iG iDir)
    let prefac1 := 2 * (1 - expCosTerm) * GsqInv
    scale (4 * π * GsqInv) (setDiag
      (scale (prefac1 - expCosTerm * hlfL * GpInv) (outer (plane iDir (toR iG)) (plane iDir (toR iG)))) iDir
      (prefac1 * toR iG iDir * toR iG iDir + expCosTerm * hlfL * Gp / GGT iDir iDir))
  else setDiag (fun _ _ => 0) iDir (-4 * π * hlfL * hlfL / GGT iDir iDir)

open Classical in
/-- Coulomb_internal.h:87-90 `CoulombSpherical_calc::operator()`. -/
def sphere (Rc : ℝ) (GGT : Mat ℝ) (iG : Fin 3 → Int) : ℝ :=
  if gsq GGT (toR iG) ≠ 0 then 4 * π * (1 - cos (Rc * sqrt (gsq GGT (toR iG)))) / gsq GGT (toR iG) else 2 * π * Rc * Rc

open Classical in
/-- Coulomb_internal.h:91-96 `CoulombSpherical_calc::latticeGradient`. -/
def sphereGrad (Rc : ℝ) (GGT : Mat ℝ) (iG : Fin 3 → Int) : Mat ℝ :=
  let Gsq := gsq GGT (toR iG)
  let GRc := sqrt Gsq * Rc
  scale (if Gsq ≠ 0 then 4 * π * (2 * (1 - cos GRc) - GRc * sin GRc) / (Gsq * Gsq) else 0) (outer (toR iG) (toR iG))

open Classical in
/-- Coulomb.cpp:372-374 `setIonKernel` with Coulomb.cpp:445-448: `GzeroVal` is `expFac`, less `expFac` times the ratio of volumes
in the fluid mode. -/
def ionKernel (ionWidth : ℝ) (fluidScale : Option ℝ) (GGT : Mat ℝ) (iG : Fin 3 → Int) : ℝ :=
  let expFac := 0.5 * ionWidth * ionWidth
  let GzeroVal := match fluidScale with | none => expFac | some s => expFac - expFac * s
  4 * π * (if gsq GGT (toR iG) ≠ 0 then (1 - exp (-expFac * gsq GGT (toR iG))) / gsq GGT (toR iG) else GzeroVal)

open Classical in
/-- Coulomb_internal.h:100-107 `CoulombIonKernel_calc`. -/
def ionKernelGrad (ionWidth : ℝ) (GGT : Mat ℝ) (iG : Fin 3 → Int) : Mat ℝ :=
  let expFac := 0.5 * ionWidth * ionWidth
  let Gsq := gsq GGT (toR iG)
  scale (if Gsq ≠ 0 then 8 * π * (1 - exp (-expFac * Gsq) * (1 + expFac * Gsq)) / (Gsq * Gsq) else 0) (outer (toR iG) (toR iG))

/-- CoulombSlab.cpp:190, 201: `hlfL`. -/
def hlfL (R : Mat ℝ) (iDir : Fin 3) : ℝ := 0.5 * sqrt (mulMM (transpose R) R iDir iDir)

/-- CoulombIsolated.cpp:114-118: the truncation radius; `inRadius` is that of the Wigner-Seitz cell. -/
def sphereRc (Rc inRadius : ℝ) : Res ℝ := open Classical in
  if Rc > inRadius then .error .die else if Rc = 0 then .ok inRadius else .ok Rc

open Box in
/-- Coulomb_internal.cpp:45, 65: the weight of a point of the half-space. -/
def halfWeight (S : Size) (v : IV) : ℝ := if v.z = 0 ∨ 2 * v.z = S.s2 then 1 else 2

/-- `vector3<int>` of the loop macros as a function. -/
def ofIV (v : Box.IV) : Fin 3 → Int := vec v.x v.y v.z

/-- Coulomb_internal.cpp:24-29 `coulombAnalytic`: the result for every entry of the half-space array. -/
def applyKernel (S : Box.Size) (K : (Fin 3 → Int) → ℝ) (data : Nat → ℂ) : Nat → ℂ := fun i => data i * (K (ofIV (Box.hStart S i)) : ℂ)

/-- Coulomb_internal.cpp:41-49 and the sum over the half-space array (CoulombPeriodic.cpp:154-156). -/
def gradSum (S : Box.Size) (grad : (Fin 3 → Int) → Mat ℝ) (X Y : Nat → ℂ) : Mat ℝ := fun a b =>
  ∑ i ∈ Finset.range (Box.nG S),
    halfWeight S (Box.hStart S i) * ((starRingEnd ℂ (X i)) * Y i).re * grad (ofIV (Box.hStart S i)) a b

/-- CoulombPeriodic.cpp:157, CoulombSlab.cpp:205, CoulombIsolated.cpp:136: `detR * (GT * resultSum * G)`. -/
def latticeGradient (R : Mat ℝ) (S : Box.Size) (grad : (Fin 3 → Int) → Mat ℝ) (X Y : Nat → ℂ) : Mat ℝ :=
  scale |det R| (mulMM (mulMM (transpose (Basis.G R)) (gradSum S grad X Y)) (Basis.G R))

/-! ### Exchange -/

/-- Coulomb_internal.h:194-197 `ExchangePeriodic_calc::operator()`. -/
def exPeriodic (kSq : ℝ) : ℝ := 4 * π / kSq
/-- Coulomb_internal.h:198-200. -/
def exPeriodicGrad (kSq : ℝ) : ℝ := 8 * π / (kSq * kSq)

/-- Coulomb_internal.h:205-206: `inv4omegaSq`. -/
def inv4omegaSq (omega : ℝ) : ℝ := 0.25 / (omega * omega)
/-- Coulomb_internal.h:207-209 `ExchangePeriodicScreened_calc::operator()`. -/
def exScreened (omega kSq : ℝ) : ℝ := 4 * π * (1 - exp (-inv4omegaSq omega * kSq)) / kSq
/-- Coulomb_internal.h:210-212. -/
def exScreenedGrad (omega kSq : ℝ) : ℝ :=
  8 * π * (1 - exp (-inv4omegaSq omega * kSq) * (1 + inv4omegaSq omega * kSq)) / (kSq * kSq)

/-- Coulomb_internal.h:220-222 `ExchangeSpherical_calc::operator()`. -/
def exSphere (Rc kSq : ℝ) : ℝ := 4 * π * (1 - cos (Rc * sqrt kSq)) / kSq
/-- Coulomb_internal.h:223-228: the returned prefactor. -/
def exSphereGrad (Rc kSq : ℝ) : ℝ :=
  4 * π * (2 * (1 - cos (sqrt kSq * Rc)) - sqrt kSq * Rc * sin (sqrt kSq * Rc)) / (kSq * kSq)
/-- Coulomb_internal.h:226: `grad_lnDetR`. -/
def exSphereLn (Rc kSq : ℝ) : ℝ := 4 * π * (sqrt kSq * Rc * sin (sqrt kSq * Rc)) / (3 * kSq)

/-- Coulomb_ExchangeEval.cpp:379-383: the truncation radius in the spherical mode, with `none` for the radius of the
Coulomb truncation where no regularization is chosen. -/
def exRc (fixed : Option ℝ) (detRsuper : ℝ) : ℝ := match fixed with
  | some Rc => Rc
  | none => (3 / (4 * π) * detRsuper) ^ (1 / 3 : ℝ)

/-- `erf`. -/
def erf (x : ℝ) : ℝ := 1 - Smear.erfc x

open Classical in
/-- Coulomb_ExchangeEval.cpp:179-196 `truncatedErfcTilde`; the quadrature of lines 187-194 is taken to be exact. -/
def truncatedErfcTilde (G omega Rc : ℝ) : ℝ :=
  if G = 0 then π * (2 * Rc * (Rc - exp (-(Rc * Rc) * (omega * omega)) / (omega * sqrt π))
    + (1 / (omega * omega) - 2 * (Rc * Rc)) * erf (omega * Rc))
  else 4 * π / G * ∫ r in (0 : ℝ)..Rc, Smear.erfc (omega * r) * sin (G * r)

/-- Coulomb_internal.h:250: `grad_lnDetR` of `ExchangeSphericalScreened_calc` with Coulomb_ExchangeEval.cpp:407. -/
def exSphereScreenedLn (omega Rc k : ℝ) : ℝ := 4 * π / 3 * Smear.erfc (omega * Rc) * sin (k * Rc) * Rc / k

/-- Coulomb_ExchangeEval.cpp:373 `Vzero` of the periodic kernel. -/
def exPeriodicVzero (corr : ℝ) (omega : ℝ) : ℝ := open Classical in corr + (if omega ≠ 0 then π / (omega * omega) else 0)

/-- Coulomb_ExchangeEval.cpp:409 `Vzero` of the spherical kernel without screening. -/
def exSphereVzero (Rc : ℝ) : ℝ := 2 * π * Rc * Rc

/-- Coulomb_ExchangeEval.cpp:411-412 `Vzero_RRT` of the spherical kernel. -/
def exSphereVzeroRRT (omega Rc : ℝ) : Mat ℝ := scale (4 * π / 3 * Rc * Rc * Smear.erfc (Rc * omega)) (diag 1 1 1)

/-- `iG + kDiff`. -/
def plusK (iG : Fin 3 → Int) (kDiff : V3 ℝ) : V3 ℝ := fun k => toR iG k + kDiff k

open Classical in
/-- Coulomb_internal.cpp:76-83 `exchangeAnalytic`: the factor applied to an entry. -/
def exFactor (kern : ℝ → ℝ) (Vzero thresholdSq : ℝ) (GGT : Mat ℝ) (kDiff : V3 ℝ) (iG : Fin 3 → Int) : ℝ :=
  if gsq GGT (plusK iG kDiff) < thresholdSq then Vzero else kern (gsq GGT (plusK iG kDiff))

open Classical in
/-- Coulomb_internal.cpp:107-117 `exchangeAnalyticStress` for unit `X`: the contribution of one entry. -/
def exGrad (prefac lnDet : ℝ → ℝ) (thresholdSq : ℝ) (R : Mat ℝ) (kDiff : V3 ℝ) (iG : Fin 3 → Int) : Mat ℝ :=
  let c := mulVM (plusK iG kDiff) (Basis.G R)
  let kSq := dot c c
  fun i j => outer c c i j * (if kSq < thresholdSq then 0 else prefac kSq)
    + (if kSq < thresholdSq then 0 else diag 1 1 1 i j * lnDet kSq)

/-- Coulomb_ExchangeEval.cpp:631-637 `RETURN_exchangeAnalyticStress`: sum over the grid and the addition for zero wave vector. -/
def exLatticeGradient (R : Mat ℝ) (S : Box.Size) (grad : (Fin 3 → Int) → Mat ℝ) (VzeroRRT : Mat ℝ) (thresholdSq : ℝ) (kDiff : V3 ℝ)
    (X : Nat → ℂ) : Mat ℝ := open Classical in fun a b =>
  |det R| * ((∑ i ∈ Finset.range (Box.nr S), grad (ofIV (Box.gStart S i)) a b * Complex.normSq (X i))
    + (if dot kDiff kDiff < thresholdSq then VzeroRRT a b * Complex.normSq (X 0) else 0))

open Classical in
/-- Coulomb_internal.h:264-280 `ExchangeSlab_calc::operator()`; `screen` is the correction of lines 272-278 (zero without
screening). -/
def exSlab (iDir : Fin 3) (hlfL : ℝ) (screen : Int → ℝ → ℝ) (Vzero thresholdSq : ℝ) (GGT : Mat ℝ) (kDiff : V3 ℝ) (iG : Fin 3 → Int) : ℝ :=
  let Gsq := gsq GGT (plusK iG kDiff)
  if Gsq < thresholdSq then Vzero
  else
    let d := Gsq - GGT iDir iDir * toR iG iDir * toR iG iDir
    let Gp := if 0 < d then sqrt d else 0
    4 * π * (1 - exp (-Gp * hlfL) * cos (π * toR iG iDir)) / Gsq + screen |iG iDir| Gp

open Classical in
/-- Coulomb_internal.h:281-304 `ExchangeSlab_calc::latticeGradient`; `zz` is `zHatOuter`. The screening does not enter. -/
def exSlabGrad (iDir : Fin 3) (hlfL : ℝ) (zz : Mat ℝ) (thresholdSq : ℝ) (R : Mat ℝ) (kDiff : V3 ℝ) (iG : Fin 3 → Int) : Mat ℝ :=
  let c := mulVM (plusK iG kDiff) (Basis.G R)
  let Gsq := dot c c
  if thresholdSq < Gsq then
    let GsqInv := 1 / Gsq
    let p := mulVM (plane iDir (plusK iG kDiff)) (Basis.G R)
    let GplaneSq := dot p p
    let GaxisSq := Gsq - GplaneSq
    let Gp := sqrt GplaneSq
    let GpInv := if Gp ≠ 0 then 1 / Gp else 0
    let expCosTerm := exp (-Gp * hlfL) * cos (π * toR iG iDir)
    let Vc0 := 4 * π * GsqInv
    let prefac1 := 2 * (1 - expCosTerm) * GsqInv
    fun i j => Vc0 * (prefac1 - expCosTerm * hlfL * GpInv) * outer p p i j
      + Vc0 * (prefac1 * GaxisSq + expCosTerm * hlfL * Gp) * zz i j
  else fun _ _ => 0

/-- Coulomb_ExchangeEval.cpp:416, 419: `zHatOuter`. -/
def zHatOuter (R : Mat ℝ) (iDir : Fin 3) : Mat ℝ :=
  let z : V3 ℝ := fun k => column R iDir k * (1 / Basis.length (column R iDir))
  outer z z

/-- Coulomb_ExchangeEval.cpp:418: `hlfL` of the slab. -/
def exHlfL (R : Mat ℝ) (iDir : Fin 3) : ℝ := 0.5 * Basis.length (column R iDir)

/-- Coulomb_ExchangeEval.cpp:462, 476: `Vzero` of the slab kernel; `screen0` is `samples[0][0]` (zero without screening). -/
def exSlabVzero (hlfL screen0 corr : ℝ) : ℝ := screen0 + -2 * π * hlfL ^ 2 + corr

/-- Coulomb_ExchangeEval.cpp:477: `Vzero_RRT` of the slab kernel. -/
def exSlabVzeroRRT (hlfL : ℝ) (zz corr : Mat ℝ) : Mat ℝ := fun i j => -4 * π * hlfL ^ 2 * zz i j + corr i j

/-- Coulomb_ExchangeEval.cpp:446-448: the transform along the truncated direction of the erf part for zero in-plane wave vector,
before the discretization. -/
def erfPlane0 (omega z : ℝ) : ℝ := 1 / (omega * sqrt π) * exp (-omega * omega * z * z) + z * erf (omega * z)

/-- Coulomb_ExchangeEval.cpp:436-437, 455-458: the zero component of the transform (`FFTW_REDFT00`) of samples along the truncated
direction, with the prefactor of line 458. -/
def axisSum (S : Nat) (hlfL : ℝ) (x : ℝ → ℝ) : ℝ :=
  let nAxis := S / 2 + 1
  let hAxis := 2 * hlfL / S
  2 * π * hAxis * (x 0 + x ((nAxis - 1 : Nat) * hAxis) + 2 * ∑ j ∈ Finset.range (nAxis - 2), x (((j : ℕ) + 1 : ℝ) * hAxis))

/-- Coulomb_ExchangeEval.cpp:335-337: the neighbouring cells, with the counts `Nreal`. -/
def probeCells (N : Fin 3 → Nat) : Finset (Fin 3 → Int) := Fintype.piFinset fun k => Finset.Icc (-(N k : Int)) (N k)

open Classical in
/-- Coulomb_ExchangeEval.cpp:338-341: `Eperiodic` of a unit charge with screening. -/
def probeE (N : Fin 3 → Nat) (omega : ℝ) (Rsuper : Mat ℝ) : ℝ := ∑ iR ∈ probeCells N,
  let rSq := metricLengthSq (mulMM (transpose Rsuper) Rsuper) (toR iR)
  if rSq = 0 then 0 else 0.5 * Smear.erfc (omega * sqrt rSq) / sqrt rSq

open Classical in
/-- Coulomb_ExchangeEval.cpp:342-346: `Eperiodic_RRT`. -/
def probeRRT (N : Fin 3 → Nat) (omega : ℝ) (Rsuper : Mat ℝ) : Mat ℝ := fun a b => ∑ iR ∈ probeCells N,
  let rSq := metricLengthSq (mulMM (transpose Rsuper) Rsuper) (toR iR)
  if rSq = 0 then 0 else
    let r := sqrt rSq
    let rVec := mulMV Rsuper (toR iR);
    -(0.5 * (Smear.erfc (omega * r) / r + 2 / sqrt π * omega * exp (-(omega * omega) * rSq)) / rSq * outer rVec rVec a b)

/-- Coulomb_ExchangeEval.cpp:363 `VzeroCorrection`. -/
def probeCorr (detRsuper Eperiodic : ℝ) : ℝ := -2 * detRsuper * Eperiodic

/-- Coulomb_ExchangeEval.cpp:364-365 `VzeroCorrection_RRT`. -/
def probeCorrRRT (detRsuper Eperiodic : ℝ) (RRT : Mat ℝ) : Mat ℝ :=
  scale (-2 * detRsuper) fun a b => RRT a b + diag 1 1 1 a b * Eperiodic

/-! ### Look-up of tabulated kernels -/

section lookup
open Box

/-- Coulomb_internal.h:336-345 `multRealKernel_calc`: the entry of the half-space kernel used for `iG`. -/
def realIndex (S : Size) (v : IV) : Int :=
  let v : IV := if v.z < 0 then ⟨-v.x, -v.y, -v.z⟩ else v
  let y := if v.y < 0 then v.y + S.s1 else v.y
  let x := if v.x < 0 then v.x + S.s0 else v.x
  v.z + (1 + (S.s2 : Int) / 2) * (y + S.s1 * x)

/-- Coulomb_internal.h:353-359 `multTransformedKernel_calc`: the entry of the full kernel used for `iG`. -/
def transIndex (S : Size) (offset v : IV) : Int :=
  let w1 (s : Nat) (g : Int) : Int := if g < 0 then g + s else g
  w1 S.s2 (v.z - offset.z) + S.s2 * (w1 S.s1 (v.y - offset.y) + S.s1 * w1 S.s0 (v.x - offset.x))

/-- Coulomb_ExchangeEval.cpp:510-524: sample counts of the supercell: the largest `2|iGsuper|` over the eight vertices. -/
def superS (S : Fin 3 → Nat) (super : Mat Int) : Fin 3 → Nat := fun k =>
  let vert (s : Fin 3 → Int) : Nat := 2 * (mulMV (transpose super) (fun j => s j * ((S j : Int) / 2 + 1)) k).natAbs
  let all := [vec 1 1 1, vec 1 1 (-1), vec 1 (-1) 1, vec 1 (-1) (-1), vec (-1) 1 1, vec (-1) 1 (-1), vec (-1) (-1) 1, vec (-1) (-1) (-1)]
  all.foldl (fun m s => if vert s > m then vert s else m) 0

/-- Coulomb_ExchangeEval.cpp:210-216 `extractExchangeKernel_thread`: the entry of the supercell kernel used for `iG`. -/
def extractIndex (Ssuper : Size) (super : Mat Int) (dkSuper : Fin 3 → Int) (v : IV) : Int :=
  let g : Fin 3 → Int := fun k => mulVM (ofIV v) super k + dkSuper k
  realIndex Ssuper ⟨g 0, g 1, g 2⟩

end lookup
end
end Jdftx.CoulK
