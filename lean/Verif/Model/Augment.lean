import Verif.Model.Ylm
import Mathlib.LinearAlgebra.Matrix.Hermitian
import Mathlib.Analysis.SpecialFunctions.Complex.Circle

/-! # Model of the density augmentation of ultrasoft pseudopotentials

jdftx/electronic/SpeciesInfo_augment.cpp:100-107, 115-200, 287-394: the part with spherical functions, `augmentDensityInit`, `augmentDensitySpherical` and `augmentDensitySphericalGrad`, for all atoms of a species (`atom < 0`). Exact
arithmetic, so the order of accumulation does not matter. An index of a projector with spinor components, `2*i+s` in the code, is the pair `(i,s)`. The part with radial functions on the grid is not modelled.
-/
namespace Jdftx.Aug
noncomputable section
open Matrix

/-! ## Radial functions and projectors -/

/-- SpeciesInfo.h:192-196 `QijIndex` without `index`. -/
structure Key where
  l1 : ℤ
  p1 : ℤ
  l2 : ℤ
  p2 : ℤ
  l : ℤ
deriving DecidableEq

/-- SpeciesInfo_augment.cpp:386-394 `sortIndices`. -/
def Key.sort (k : Key) : Key :=
  if k.l1 > k.l2 then ⟨k.l2, k.p2, k.l1, k.p1, k.l⟩
  else if k.l1 = k.l2 ∧ k.p1 > k.p2 then ⟨k.l1, k.p2, k.l2, k.p1, k.l⟩
  else k

/-- SpeciesInfo_augment.cpp:367-385 `operator<`. -/
def less (a b : Key) : Bool :=
  let q1 := a.sort
  let q2 := b.sort
  if q1.l1 < q2.l1 then true
  else if q1.l1 = q2.l1 then
    if q1.p1 < q2.p1 then true
    else if q1.p1 = q2.p1 then
      if q1.l2 < q2.l2 then true
      else if q1.l2 = q2.l2 then
        if q1.p2 < q2.p2 then true
        else if q1.p2 = q2.p2 then decide (q1.l < q2.l)
        else false
      else false
    else false
  else false

/-- `std::map::find` and the index of the entry, which is its position in the map (SpeciesInfo.cpp:421). -/
def find (keys : List Key) (k : Key) : Option ℕ := keys.findIdx? fun k' => !less k k' && !less k' k

/-- SpeciesInfo_augment.cpp:174-176: `l1`, `p1`, `m1` of a projector. -/
structure Proj where
  l : ℕ
  p : ℕ
  m : ℤ

/-- SpeciesInfo_augment.cpp:174-176: the triple loop over projectors; `V` are the sizes of `VnlRadial`. -/
def projs (V : List ℕ) : List Proj :=
  (List.range V.length).flatMap fun l => (List.range (V.getD l 0)).flatMap fun p => (List.range (2 * l + 1)).map fun (m : ℕ) => ⟨l, p, (m : ℤ) - l⟩

/-- SpeciesInfo_augment.cpp:104-106: `lMax`. -/
def lMax (V : List ℕ) : ℕ := (List.range V.length).foldl (fun a l => if V.getD l 0 ≠ 0 then l else a) 0

/-- SpeciesInfo_augment.cpp:107: `Nlm`. -/
def Nlm (V : List ℕ) : ℕ := (2 * lMax V + 1) * (2 * lMax V + 1)

/-- ElecInfo.cpp:50-53: `SpinNone` and `SpinZ` as `col 1`, `col 2`, `SpinOrbit` as `ncol1`, `SpinVector` as `ncol4`. -/
inductive Mode where
  | col (nDens : ℕ)
  | ncol1
  | ncol4

/-- ElecInfo.h:76 `spinorLength`. -/
def Mode.k : Mode → ℕ
  | .col _ => 1
  | .ncol1 => 2
  | .ncol4 => 2

/-- ElecInfo.cpp:50-53: `nDensities`. -/
def Mode.nDens : Mode → ℕ
  | .col n => n
  | .ncol1 => 1
  | .ncol4 => 4

/-- What is used of the species (SpeciesInfo.h:49, 81, 184, 201, 212). `flj` is `fljAll` for relativistic pseudopotentials; its value is not modelled. -/
structure Species (md : Mode) where
  V : List ℕ
  keys : List Key
  nAtoms : ℕ
  detR : ℝ
  flj : Option (Matrix (Fin (projs V).length × Fin md.k) (Fin (projs V).length × Fin md.k) ℂ)

variable {md : Mode} (sp : Species md)

/-- SpeciesInfo_augment.cpp:129: `nProj`, number of projectors of an atom without spinor components. -/
abbrev Species.n : ℕ := (projs sp.V).length

/-- SpeciesInfo_augment.cpp:139: matrices of projectors of an atom. -/
abbrev Species.Mat := Matrix (Fin sp.n × Fin md.k) (Fin sp.n × Fin md.k) ℂ

/-- SpeciesInfo_augment.cpp:152: matrices of projectors of an atom for one component of the density. -/
abbrev Species.Mat1 := Matrix (Fin sp.n) (Fin sp.n) ℂ

/-- SpeciesInfo_augment.cpp:173-195: projector number `i1`. -/
def Species.proj (i : Fin sp.n) : Proj := (projs sp.V).get i

/-- SpeciesInfo_augment.cpp:126, ElecInfo.h:45-53: a state with weight, number of the spin, fillings `Fq`, and projections `VdagCq` of bands for each atom. -/
structure QState (nb : ℕ) where
  weight : ℝ
  index : ℕ
  F : Fin nb → ℝ
  VdagC : Fin sp.nAtoms → Matrix (Fin sp.n × Fin md.k) (Fin nb) ℂ

/-! ## Density -/

/-- SpeciesInfo_augment.cpp:151, 357: transformation for relativistic pseudopotentials. -/
def Species.rel (R : sp.Mat) : sp.Mat :=
  match sp.flj with
  | none => R
  | some f => f * R * f

/-- SpeciesInfo_augment.cpp:140-142, 151: density matrix of an atom. -/
def rho {nb : ℕ} (q : QState sp nb) (at' : Fin sp.nAtoms) : sp.Mat :=
  sp.rel (q.VdagC at' * diagonal (fun b => (q.F b : ℂ)) * (q.VdagC at')ᴴ)

/-- SpeciesInfo_augment.cpp:144-151: its derivative when `dL` are the derivatives of projections, or `dL` and `dR` separate ones. -/
def rhoDeriv {nb : ℕ} (q : QState sp nb) (dL : Fin sp.nAtoms → Matrix (Fin sp.n × Fin md.k) (Fin nb) ℂ)
    (dR : Option (Fin sp.nAtoms → Matrix (Fin sp.n × Fin md.k) (Fin nb) ℂ)) (at' : Fin sp.nAtoms) : sp.Mat :=
  sp.rel (q.VdagC at' * diagonal (fun b => (q.F b : ℂ)) * (dR.getD dL at')ᴴ + dL at' * diagonal (fun b => (q.F b : ℂ)) * (q.VdagC at')ᴴ)

/-- SpeciesInfo_augment.cpp:154-155, 159-160: a part with given spinor components, `RhoAll(s,2,nProj, s',2,nProj)`. -/
def part {n k : ℕ} (R : Matrix (Fin n × Fin k) (Fin n × Fin k) ℂ) (s s' : Fin k) : Matrix (Fin n) (Fin n) ℂ := Matrix.of fun i j => R (i, s) (j, s')

/-- SpeciesInfo_augment.cpp:152-167: components of the density matrix; `none` for those left empty. -/
def split {n : ℕ} : (md : Mode) → ℕ → Matrix (Fin n × Fin md.k) (Fin n × Fin md.k) ℂ → ℕ → Option (Matrix (Fin n) (Fin n) ℂ)
  | .col _, index, R, s => if s = index then some (part (k := 1) R 0 0) else none
  | .ncol1, _, R, s => if s = 0 then some (part (k := 2) R 0 0 + part (k := 2) R 1 1) else none
  | .ncol4, _, R, s =>
    match s with
    | 0 => some (part (k := 2) R 0 0)
    | 1 => some (part (k := 2) R 1 1)
    | 2 => some ((1 / 2 : ℂ) • (part (k := 2) R 0 1 + part (k := 2) R 1 0))
    | 3 => some ((-(1 / 2) * Complex.I : ℂ) • (part (k := 2) R 0 1 - part (k := 2) R 1 0))
    | _ => none

/-- SpeciesInfo_augment.cpp:185, 333: `cis(0.5*M_PI*(l2-l1))`. -/
def phase (l1 l2 : ℕ) : ℂ := Complex.exp (((0.5 * Real.pi * ((l2 : ℝ) - l1) : ℝ) : ℂ) * Complex.I)

/-- SpeciesInfo_augment.cpp:184-185: `prefac`. -/
def Species.prefac (w : ℝ) (R : sp.Mat1) (i1 i2 : Fin sp.n) : ℝ := w * ((if i1 = i2 then 1 else 2) / sp.detR) * (R i2 i1 * phase (sp.proj i1).l (sp.proj i2).l).re

/-- core/SphericalHarmonics.h:353-358: `expandYlmProd(l1,m1, l2,m2)`. -/
def terms (a b : Proj) : List Ylm.Term := Ylm.expand ((a.l : ℤ) * (a.l + 1) + a.m).toNat ((b.l : ℤ) * (b.l + 1) + b.m).toNat

/-- SpeciesInfo_augment.cpp:171, 190, 313, 331: column of the arrays. -/
def Species.column (s : ℕ) (at' : Fin sp.nAtoms) (t : Ylm.Term) : ℤ := (Nlm sp.V : ℤ) * ((at' : ℤ) + s * sp.nAtoms) + t.l * (t.l + 1) + t.m

/-- SpeciesInfo_augment.cpp:187-190, 328-331: row of the arrays, if there is a radial function. -/
def Species.row (a b : Proj) (t : Ylm.Term) : Option ℕ := find sp.keys ⟨a.l, a.p, b.l, b.p, t.l⟩

/-- SpeciesInfo_augment.cpp:186-191: what a pair of projectors adds to an element of `nAug`. -/
def Species.addPair (s : ℕ) (at' : Fin sp.nAtoms) (i1 i2 : Fin sp.n) (x : ℝ) (r : ℕ) (c : ℤ) : ℝ :=
  ((terms (sp.proj i1) (sp.proj i2)).map fun t => if sp.row (sp.proj i1) (sp.proj i2) t = some r ∧ sp.column s at' t = c then (t.coeff : ℝ) * x else 0).sum

/-- SpeciesInfo_augment.cpp:171-196: what a component of a density matrix adds. -/
def Species.addMat (w : ℝ) (s : ℕ) (at' : Fin sp.nAtoms) (R : sp.Mat1) (r : ℕ) (c : ℤ) : ℝ :=
  ∑ i1, ∑ i2 ∈ Finset.univ.filter (· ≤ i1), sp.addPair s at' i1 i2 (sp.prefac w R i1 i2) r c

/-- SpeciesInfo_augment.cpp:136-198: what a state with density matrices `R` of atoms adds to `nAug`. -/
def Species.addState (w : ℝ) (index : ℕ) (R : Fin sp.nAtoms → sp.Mat) (r : ℕ) (c : ℤ) : ℝ :=
  ∑ at', ∑ s ∈ Finset.range md.nDens, match split md index (R at') s with
    | some R1 => sp.addMat w s at' R1 r c
    | none => 0

/-- SpeciesInfo_augment.cpp:115-124, 126-200: `augmentDensitySpherical` for all states, after `augmentDensityInit`. -/
def nAug {nb : ℕ} (qs : List (QState sp nb)) (r : ℕ) (c : ℤ) : ℝ := (qs.map fun q => sp.addState q.weight q.index (rho sp q) r c).sum

/-! ## Gradient -/

/-- SpeciesInfo_augment.cpp:325-333: `E_Rho_i1i2`; `E` are the real parts of `E_nAug`. -/
def Species.ePair (E : ℕ → ℤ → ℝ) (s : ℕ) (at' : Fin sp.nAtoms) (i1 i2 : Fin sp.n) : ℂ :=
  ((((terms (sp.proj i1) (sp.proj i2)).map fun t =>
    match sp.row (sp.proj i1) (sp.proj i2) t with
    | some r => (t.coeff : ℝ) * E r (sp.column s at' t)
    | none => 0).sum * (1 / sp.detR) : ℝ) : ℂ) * phase (sp.proj i1).l (sp.proj i2).l

/-- SpeciesInfo_augment.cpp:306-341: `E_Rho[s]`. -/
def Species.eMat (E : ℕ → ℤ → ℝ) (s : ℕ) (at' : Fin sp.nAtoms) : sp.Mat1 :=
  Matrix.of fun a b => (if a ≤ b then star (sp.ePair E s at' b a) else 0) + (if b ≤ a ∧ b ≠ a then sp.ePair E s at' a b else 0)

/-- SpeciesInfo_augment.cpp:343-354: `E_RhoAll` from its components. -/
def collate {n : ℕ} : (md : Mode) → ℕ → (ℕ → Matrix (Fin n) (Fin n) ℂ) → Matrix (Fin n × Fin md.k) (Fin n × Fin md.k) ℂ
  | .col _, index, e => Matrix.of fun a b => e index a.1 b.1
  | .ncol1, _, e => Matrix.of fun (a b : Fin n × Fin 2) => if a.2 = b.2 then e 0 a.1 b.1 else 0
  | .ncol4, _, e => Matrix.of fun (a b : Fin n × Fin 2) =>
    if a.2 = 0 then (if b.2 = 0 then e 0 a.1 b.1 else (0.5 : ℂ) * e 2 a.1 b.1 + (0.5 * Complex.I) * e 3 a.1 b.1)
    else (if b.2 = 0 then (0.5 : ℂ) * e 2 a.1 b.1 - (0.5 * Complex.I) * e 3 a.1 b.1 else e 1 a.1 b.1)

/-- SpeciesInfo_augment.cpp:306-357: `E_RhoAll` after the transformation for relativistic pseudopotentials. -/
def ham (E : ℕ → ℤ → ℝ) (index : ℕ) (at' : Fin sp.nAtoms) : sp.Mat := sp.rel (collate md index fun s => sp.eMat E s at')

/-- SpeciesInfo_augment.cpp:287-364 `augmentDensitySphericalGrad`: what is added to `HVdagCq`. -/
def sphericalGrad {nb : ℕ} (E : ℕ → ℤ → ℝ) (q : QState sp nb) (at' : Fin sp.nAtoms) : Matrix (Fin sp.n × Fin md.k) (Fin nb) ℂ := ham sp E q.index at' * q.VdagC at'

end
end Jdftx.Aug
