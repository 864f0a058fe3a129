import Verif.Model.CoulombKernels
import Verif.Model.BoxField
import Verif.Model.Euler
import Mathlib.LinearAlgebra.Matrix.Trace
import Mathlib.LinearAlgebra.Matrix.ConjTranspose

/-!
# Model of forces and stresses due to pseudopotentials

jdftx/electronic/SpeciesInfo_internal.h:33-93, 269-412, SpeciesInfo_internal.cpp:27-45, 119-216 and SpeciesInfo_energy.cpp:30-53, 202-353. Exact arithmetic; radial functions, their
derivatives (`RadialFunctionG::operator()` and `deriv`), spherical harmonics and their derivatives are parameters. One process; loops over points write disjoint entries and are given
entry by entry. Spinors, and the atom argument of `updateLocal` and `EnlAndGrad`, are not modelled.
-/
namespace Jdftx.Psp
noncomputable section
open M3 Real
open scoped Matrix
open CoulK (ofIV halfWeight scale gsq)
open Ewald (toR outer)
open scoped ComplexConjugate

/-! ### Local part -/

/-- Fields on the half reciprocal grid that depend on the ions: local potential, nuclear charge, charge balls, partial cores. -/
structure Fields where
  V : Box.Arr
  rho : Box.Arr
  cb : Box.Arr
  nc : Box.Arr
  tau : Box.Arr

/-- Complex-conjugate gradients with respect to these fields; `none` are null pointers. -/
structure Grads where
  V : Box.Arr
  rho : Option Box.Arr
  cb : Option Box.Arr
  nc : Box.Arr
  tau : Option Box.Arr

/-- Local part of a pseudopotential: radial functions, their derivatives, and whether partial cores exist. -/
structure Local where
  Vloc : ℝ → ℝ
  dVloc : ℝ → ℝ
  Z : ℝ
  Zcb : ℝ
  wcb : ℝ
  hasCore : Bool
  nCore : ℝ → ℝ
  dnCore : ℝ → ℝ
  hasTau : Bool
  tauCore : ℝ → ℝ
  dtauCore : ℝ → ℝ

/-- SpeciesInfo_internal.h:271-276 `getSG_calc`. -/
def sg {n : ℕ} (pos : Fin n → V3 ℝ) (iG : Fin 3 → Int) : ℂ := ∑ a, Euler.cis (-2 * π * dot (toR iG) (pos a))

/-- Reciprocal lattice coordinates at an entry of the half grid (`THREAD_halfGspaceLoop`). -/
def iGof (S : Box.Size) (i : Int) : Fin 3 → Int := ofIV (Box.hStart S i.toNat)

open Classical in
/-- SpeciesInfo_internal.h:284-310 `updateLocal_calc`, SpeciesInfo_internal.cpp:129-152, SpeciesInfo_energy.cpp:202-222: fields with the contributions of one species added. -/
def updateLocal {n : ℕ} (sp : Local) (S : Box.Size) (GGT : Mat ℝ) (invVol : ℝ) (pos : Fin n → V3 ℝ) (f : Fields) : Fields :=
  let Gsq := fun i => gsq GGT (toR (iGof S i))
  let s := fun i => sg pos (iGof S i) * (invVol : ℂ)
  { V := fun i => f.V i + s i * (sp.Vloc (sqrt (Gsq i)) : ℂ)
    rho := fun i => f.rho i + s i * (-(sp.Z : ℂ))
    cb := if sp.Zcb ≠ 0 then fun i => f.cb i + s i * (sp.Zcb : ℂ) * (exp (-0.5 * Gsq i * sp.wcb ^ 2) : ℂ) else f.cb
    nc := if sp.hasCore then fun i => f.nc i + s i * (sp.nCore (sqrt (Gsq i)) : ℂ) else f.nc
    tau := if sp.hasTau then fun i => f.tau i + s i * (sp.tauCore (sqrt (Gsq i)) : ℂ) else f.tau }

open Classical in
/-- SpeciesInfo_internal.h:324-353 `gradLocalToSG_calc` with the pointers of SpeciesInfo_energy.cpp:232-235. -/
def gradSG (sp : Local) (S : Box.Size) (GGT : Mat ℝ) (g : Grads) : Box.Arr := fun i =>
  let Gsq := gsq GGT (toR (iGof S i))
  g.V i * (sp.Vloc (sqrt Gsq) : ℂ)
    + (match g.rho with | some r => r i * (-(sp.Z : ℂ)) | none => 0)
    + (match g.cb with | some r => if sp.Zcb ≠ 0 then r i * (sp.Zcb : ℂ) * (exp (-0.5 * Gsq * sp.wcb ^ 2) : ℂ) else 0 | none => 0)
    + (if sp.hasCore then g.nc i * (sp.nCore (sqrt Gsq) : ℂ) else 0)
    + (match g.tau with | some r => if sp.hasTau then r i * (sp.tauCore (sqrt Gsq) : ℂ) else 0 | none => 0)

/-- SpeciesInfo_internal.h:370-375 `gradSGtoAtpos_calc`: component `k`. -/
def gradAtpos (S : Box.Size) (ccSG : Box.Arr) (x : V3 ℝ) (k : Fin 3) : Box.Arr := fun i =>
  (toR (iGof S i) k : ℂ) * ((⟨0, -2 * π⟩ : ℂ) * Euler.cis (-2 * π * dot (toR (iGof S i)) x) * conj (ccSG i))

/-- SpeciesInfo_energy.cpp:225-253 `getLocalForces`, for one atom. -/
def localForce (sp : Local) (S : Box.Size) (GGT : Mat ℝ) (g : Grads) (x : V3 ℝ) : V3 ℝ := fun k =>
  -Box.sumHalf S (gradAtpos S (gradSG sp S GGT g) x k)

open Classical in
/-- SpeciesInfo_internal.h:392-404: `ccgradRadial`. -/
def gradRadial (sp : Local) (S : Box.Size) (GGT : Mat ℝ) (g : Grads) : Box.Arr := fun i =>
  let Gsq := gsq GGT (toR (iGof S i))
  let Gmag := sqrt Gsq
  g.V i * (sp.dVloc Gmag : ℂ)
    + (match g.cb with | some r => if sp.Zcb ≠ 0 then r i * (sp.Zcb : ℂ) * (exp (-0.5 * Gsq * sp.wcb ^ 2) : ℂ) * ((-(sp.wcb ^ 2) * Gmag : ℝ) : ℂ) else 0 | none => 0)
    + (if sp.hasCore then g.nc i * (sp.dnCore Gmag : ℂ) else 0)
    + (match g.tau with | some r => if sp.hasTau then r i * (sp.dtauCore Gmag : ℂ) else 0 | none => 0)

open Classical in
/-- SpeciesInfo_internal.h:385-412 `gradLocalToStress_calc`. -/
def stressCalc {n : ℕ} (sp : Local) (S : Box.Size) (GGT : Mat ℝ) (g : Grads) (pos : Fin n → V3 ℝ) (i : ℕ) : Mat ℝ :=
  let Gsq := gsq GGT (toR (iGof S i))
  let GmagInv := if Gsq ≠ 0 then 1 / sqrt Gsq else 0
  scale (-halfWeight S (Box.hStart S i) * (conj (gradRadial sp S GGT g i) * sg pos (iGof S i)).re * GmagInv) (outer (toR (iGof S i)) (toR (iGof S i)))

/-- SpeciesInfo_energy.cpp:256-276 `getLocalStress`. -/
def localStress {n : ℕ} (sp : Local) (S : Box.Size) (R : Mat ℝ) (g : Grads) (pos : Fin n → V3 ℝ) : Mat ℝ :=
  mulMM (mulMM (M3.transpose (Basis.G R)) (fun a b => ∑ i ∈ Finset.range (Box.nG S), stressCalc sp S (Basis.GGT R) g pos i a b)) (Basis.G R)

/-! ### Nonlocal part -/

/-- One projector: radial function, spherical harmonic, and their derivatives. -/
structure Proj where
  V : ℝ → ℝ
  dV : ℝ → ℝ
  Y : V3 ℝ → ℝ
  dY : V3 ℝ → V3 ℝ

/-- Nonlocal calculation for one species and one state: projectors with matrices `M` and (for ultrasoft pseudopotentials) `Q`, k-point, basis, wavefunctions, fillings and weight, and
the gradient with respect to the overlap of bands. -/
structure Nonlocal (np nb nG : ℕ) where
  proj : Fin np → Proj
  M : Matrix (Fin np) (Fin np) ℂ
  Q : Option (Matrix (Fin np) (Fin np) ℂ)
  k : V3 ℝ
  iG : Fin nG → Fin 3 → Int
  C : Matrix (Fin nG) (Fin nb) ℂ
  F : Fin nb → ℝ
  w : ℝ
  gradOverlap : Matrix (Fin nb) (Fin nb) ℂ

variable {np nb nG n : ℕ}

/-- SpeciesInfo_internal.h:38, 53, 79: `kpG`. -/
def kpG (c : Nonlocal np nb nG) (i : Fin nG) : V3 ℝ := fun j => c.k j + toR (c.iG i) j

/-- SpeciesInfo_internal.h:39, 54, 80: `qvec`. -/
def qvec (c : Nonlocal np nb nG) (G : Mat ℝ) (i : Fin nG) : V3 ℝ := mulVM (kpG c i) G

open Classical in
/-- SpeciesInfo_internal.h:41, 56, 82: `qInv`. -/
def invLen (q : V3 ℝ) : ℝ := if Basis.length q ≠ 0 then 1 / Basis.length q else 0

/-- SpeciesInfo_internal.h:41, 57, 83: `qhat`. -/
def hat (q : V3 ℝ) : V3 ℝ := fun j => q j * invLen q

/-- SpeciesInfo_internal.h:42: `prefac`. -/
def prefac (p : Proj) (q : V3 ℝ) : ℝ := p.Y (hat q) * p.V (Basis.length q)

/-- SpeciesInfo_internal.h:35-46 `Vnl_calc`. -/
def vnl (c : Nonlocal np nb nG) (G : Mat ℝ) (x : V3 ℝ) : Matrix (Fin nG) (Fin np) ℂ :=
  Matrix.of fun i p => (prefac (c.proj p) (qvec c G i) : ℂ) * Euler.cis (-2 * π * dot x (kpG c i))

/-- SpeciesInfo_internal.h:84-89: `prefac_ij`. -/
def prefacStress (p : Proj) (q : V3 ℝ) (i j : Fin 3) : ℝ :=
  let Vradial := p.V (Basis.length q)
  let VYprime := Vradial * p.dY (hat q) j * invLen q + hat q j * (p.dV (Basis.length q) * p.Y (hat q) - Vradial * invLen q * dot (p.dY (hat q)) (hat q));
  -q i * VYprime

/-- SpeciesInfo_internal.h:73-93 `VnlStress_calc`. -/
def vnlStress (c : Nonlocal np nb nG) (G : Mat ℝ) (x : V3 ℝ) (i j : Fin 3) : Matrix (Fin nG) (Fin np) ℂ :=
  Matrix.of fun m p => (prefacStress (c.proj p) (qvec c G m) i j : ℂ) * Euler.cis (-2 * π * dot x (kpG c m))

/-- ColumnBundleOperators_internal.h:88-94 and ColumnBundleOperators.cpp:364: derivative of projectors along Cartesian direction `k`. -/
def dVnl (c : Nonlocal np nb nG) (G : Mat ℝ) (x : V3 ℝ) (k : Fin 3) : Matrix (Fin nG) (Fin np) ℂ :=
  Matrix.of fun i p => (⟨0, dot c.k (column G k) + dot (toR (c.iG i)) (column G k)⟩ : ℂ) * vnl c G x i p

/-- SpeciesInfo_energy.cpp:30-50 `EnlAndGrad`: the energy, from the projections of each atom. -/
def enl (c : Nonlocal np nb nG) (A : Fin n → Matrix (Fin np) (Fin nb) ℂ) : ℝ :=
  ∑ a, (Matrix.trace (Matrix.diagonal (fun b => (c.F b : ℂ)) * (A a)ᴴ * (c.M * A a))).re

/-- SpeciesInfo_energy.cpp:30-50 `EnlAndGrad`: the gradient with respect to the projections of one atom (`HVdagCq`). -/
def henl (c : Nonlocal np nb nG) (A : Matrix (Fin np) (Fin nb) ℂ) : Matrix (Fin np) (Fin nb) ℂ := c.M * A

/-- SpeciesInfo_energy.cpp:299-301, with IonInfo.cpp:305: `E_atomVdagC`. -/
def eA (c : Nonlocal np nb nG) (A : Matrix (Fin np) (Fin nb) ℂ) : Matrix (Fin np) (Fin nb) ℂ :=
  henl c A * Matrix.diagonal (fun b => (c.F b : ℂ)) + (match c.Q with | some Q => Q * A * c.gradOverlap | none => 0)

/-- SpeciesInfo_energy.cpp:303-308: force on one atom. -/
def nonlocalForce (c : Nonlocal np nb nG) (R : Mat ℝ) (x : V3 ℝ) : V3 ℝ :=
  let A := (vnl c (Basis.G R) x)ᴴ * c.C
  let fCart : V3 ℝ := fun k => (Matrix.trace (eA c A * ((dVnl c (Basis.G R) x k)ᴴ * c.C)ᴴ)).re
  fun j => 2 * c.w * mulMV (M3.transpose R) fCart j

/-- SpeciesInfo_energy.cpp:145 `RRTindex`. -/
def rrtIndex : List (Fin 3 × Fin 3) := [(0, 0), (1, 1), (2, 2), (1, 2), (2, 0), (0, 1)]

/-- SpeciesInfo_energy.cpp:310-320: `Enl_RRT_ij` of one atom. -/
def stressIJ (c : Nonlocal np nb nG) (R : Mat ℝ) (x : V3 ℝ) (i j : Fin 3) : ℝ :=
  2 * c.w * (Matrix.trace (eA c ((vnl c (Basis.G R) x)ᴴ * c.C) * ((vnlStress c (Basis.G R) x i j)ᴴ * c.C)ᴴ)).re

/-- `m(i,j) += x`. -/
def addEntry (m : Mat ℝ) (i j : Fin 3) (x : ℝ) : Mat ℝ := fun a b => if a = i ∧ b = j then m a b + x else m a b

/-- SpeciesInfo_energy.cpp:310-320: stress of one atom added. -/
def addStress (c : Nonlocal np nb nG) (R : Mat ℝ) (x : V3 ℝ) (m : Mat ℝ) : Mat ℝ :=
  rrtIndex.foldl (fun m ij =>
    let v := stressIJ c R x ij.1 ij.2
    let m := addEntry m ij.1 ij.2 v
    if ij.1 ≠ ij.2 then addEntry m ij.2 ij.1 v else m) m

/-- SpeciesInfo_energy.cpp:278-323 `accumNonlocalForces`: stress. -/
def nonlocalStress (c : Nonlocal np nb nG) (R : Mat ℝ) (pos : Fin n → V3 ℝ) : Mat ℝ :=
  (List.finRange n).foldl (fun m a => addStress c R (pos a) m) (fun _ _ => 0)

/-- SpeciesInfo_internal.h:48-71 `VnlPrime_calc` and SpeciesInfo_internal.cpp:40: derivative of projectors with respect to the Cartesian wave vector along `dir`. -/
def vnlPrime (c : Nonlocal np nb nG) (G : Mat ℝ) (x dir : V3 ℝ) : Matrix (Fin nG) (Fin np) ℂ :=
  let RTdir : V3 ℝ := fun j => 2 * π * mulVM dir (Basis.inv G) j
  Matrix.of fun i p =>
    let q := qvec c G i
    let pr := c.proj p
    let qhatDir := dot (hat q) dir
    let Y_qDir := dot (pr.dY (hat q)) (fun j => dir j - hat q j * qhatDir) * invLen q
    let Vradial := pr.V (Basis.length q)
    let prefac_qDir := Y_qDir * Vradial + pr.Y (hat q) * (pr.dV (Basis.length q) * qhatDir)
    let S := Euler.cis (-2 * π * dot x (kpG c i))
    let S_qDir := S * (⟨0, -dot x RTdir⟩ : ℂ)
    (prefac_qDir : ℂ) * S + ((pr.Y (hat q) * Vradial : ℝ) : ℂ) * S_qDir

/-! ### Cache of projectors -/

/-- Positions, lattice, lattice at the last update, and cached projectors, by k-point and basis. -/
structure Cache (P L K W : Type) where
  pos : P
  R : L
  Rprev : L
  cached : List (K × W)

/-- What happens to a species: new positions (SpeciesInfo.cpp:34-40 `sync_atpos`), a new lattice, an update of lattice-dependent quantities (SpeciesInfo.cpp:396-411
`updateLatticeDependent`), a request for projectors with an optional direction and a stress component. -/
inductive Op (P L K D : Type) where
  | move (pos : P)
  | lattice (R : L)
  | update
  | getV (k : K) (derivDir : Option D) (stressDir : Int)

open Classical in
/-- SpeciesInfo_energy.cpp:325-353 `getV`; `compute` are lines 338-348. -/
def getV {P L K D W : Type} (compute : P → L → K → Option D → Int → W) (useCache : Bool) (s : Cache P L K W) (k : K) (derivDir : Option D) (stressDir : Int) : Cache P L K W × W :=
  if useCache ∧ derivDir = none ∧ stressDir = 0 then
    match s.cached.find? (fun e => decide (e.1 = k)) with
    | some e => (s, e.2)
    | none => let V := compute s.pos s.R k derivDir stressDir; ({ s with cached := (k, V) :: s.cached }, V)
  else (s, compute s.pos s.R k derivDir stressDir)

open Classical in
/-- One event, and the projectors that it returns. -/
def opStep {P L K D W : Type} (compute : P → L → K → Option D → Int → W) (useCache : Bool) (s : Cache P L K W) : Op P L K D → Cache P L K W × Option W
  | .move pos => ({ s with pos := pos, cached := [] }, none)
  | .lattice R => ({ s with R := R }, none)
  | .update => (if s.Rprev ≠ s.R then { s with Rprev := s.R, cached := [] } else { s with Rprev := s.R }, none)
  | .getV k d sd => ((getV compute useCache s k d sd).1, some (getV compute useCache s k d sd).2)

end
end Jdftx.Psp
