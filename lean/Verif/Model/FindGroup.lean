import Verif.Model.PeriodicLookup
import Verif.Model.SpaceGroup
import Verif.Model.Constrain
import Mathlib.Analysis.SpecialFunctions.Pow.Real

/-!
# Model of the detection of space-group symmetries (jdftx/electronic/Symmetries.cpp)

`findSpaceGroup` (449-526), the filters for electric fields and atom perturbations (395-428), `sortSymmetries` (585-591) and
`initAtomMaps` (691-741). Arithmetic is exact. The supercell `sup` is `(1,1,1)`, its value in all calculations but those of the
`phonon` program. Logging is not modelled.
-/
namespace Jdftx.FindGroup
open Jdftx.M3 Jdftx.PL
noncomputable section
open Classical

/-- One species: the number of atoms, their lattice coordinates (SpeciesInfo.h `atpos`), `initialMagneticMoments` (`none` when
empty), `constraints`, and the mesh counts chosen by the constructor of the lookup table for `atpos` (LatticeUtils.h:110-117). -/
structure Species where
  n : Nat
  pos : Nat → V3 ℝ
  mom : Option (Nat → V3 ℝ)
  con : Nat → Ion.Constraint ℝ String
  S : V3 Int

/-- Inputs: threshold `symmThreshold`, lattice vectors `gInfo.R` (columns), whether `spinType` is `SpinVector`, and
`iInfo.species`. -/
structure Cfg where
  thr : ℝ
  R : Mat ℝ
  spinVector : Bool
  species : List Species

/-- matrix3.h:264 `inv`. -/
def inv3 (m : Mat ℝ) : Mat ℝ := smul (1 / det m) (adjugate m)

/-- vector3.h:68 `length`. -/
def len (v : V3 ℝ) : ℝ := Real.sqrt (dot v v)

/-- Symmetries.cpp:453: Cartesian rotation matrix. -/
def rotCart (R : Mat ℝ) (rot : Mat Int) : Mat ℝ := mulMM (mulMM R (castMat rot)) (inv3 R)

/-- Symmetries.cpp:454: rotation of spins, which do not change under inversion. -/
def rotSpin (R : Mat ℝ) (rot : Mat Int) : Mat ℝ := smul (1 / det (rotCart R rot)) (rotCart R rot)

/-- Symmetries.cpp:467, 511: moment of an atom after the operation. -/
def momRot (c : Cfg) (rot : Mat Int) (m : V3 ℝ) : V3 ℝ := if c.spinVector then mulMV (rotSpin c.R rot) m else m

/-- Symmetries.cpp:445-447 `magMomEquivalent`. -/
def magMomEquivalent (thr : ℝ) (a b : V3 ℝ) : Prop := dot (fun k => a k - b k) (fun k => a k - b k) < thr * thr

/-- Symmetries.cpp:469: condition on the moments. -/
def momOk (c : Cfg) (sp : Species) (rot : Mat Int) (a1 a2 : Nat) : Prop :=
  match sp.mom with
  | none => True
  | some m => magMomEquivalent c.thr (momRot c rot (m a1)) (m a2)

/-- SpeciesInfo.cpp:42-44 `isParallel`. -/
def isParallel (thr : ℝ) (x y : V3 ℝ) : Prop := abs (1 - abs (dot x y / (len x * len y))) < thr

/-- SpeciesInfo.h:62 `d`, the zero vector unless the constraint is linear or planar. -/
def dirOf : Ion.CType ℝ String → V3 ℝ
  | .linear d => d
  | .planar d => d
  | _ => fun _ => 0

/-- The enumerator `type` of a constraint. -/
def tagOf : Ion.CType ℝ String → Nat
  | .none => 0
  | .linear _ => 1
  | .planar _ => 2
  | .hyperPlane _ => 3

/-- SpeciesInfo.cpp:54-59 `isEquivalent` with 46-52 `areBothZero`, `areBothNonZero` (which compare lengths to the square of the
threshold). -/
def isEquivalent (thr : ℝ) (x y : Ion.Constraint ℝ String) (T : Mat ℝ) : Prop :=
  if x.moveScale ≠ y.moveScale then False
  else if tagOf x.type ≠ tagOf y.type then False
  else tagOf x.type = 0 ∨ (len (dirOf x.type) < thr * thr ∧ len (dirOf y.type) < thr * thr) ∨
    ((thr * thr < len (dirOf x.type) ∧ thr * thr < len (dirOf y.type)) ∧ isParallel thr (mulMV T (dirOf x.type)) (dirOf y.type))

/-- Symmetries.cpp:469-471: atom `a2` may be the image of `a1`. -/
def admissible (c : Cfg) (sp : Species) (rot : Mat Int) (a1 a2 : Nat) : Prop :=
  momOk c sp rot a1 a2 ∧ isEquivalent c.thr (sp.con a1) (sp.con a2) (rotCart c.R rot)

/-- Symmetries.cpp:474, 515, 723: wrap to `[-0.5,0.5)`. -/
def wrapHalf (v : V3 ℝ) : V3 ℝ := fun k => v k - (Int.floor (0.5 + v k) : ℝ)

/-- Symmetries.cpp:466, 473: offset bringing the rotated atom `a1` onto `a2`. -/
def offset (sp : Species) (rot : Mat Int) (a1 a2 : Nat) : V3 ℝ := fun k => sp.pos a2 k - mulMV (castMat rot) (sp.pos a1) k

/-- Symmetries.cpp:468-479: loop over `a2` collecting offsets that are not yet in the list. The lookup table is built from the
empty list, hence has a single cell (LatticeUtils.h:113-115). -/
def candLoop (c : Cfg) (sp : Species) (rot : Mat Int) (a1 : Nat) : List Nat → List (V3 ℝ) → Res (List (V3 ℝ))
  | [], aCur => .ok aCur
  | a2 :: l, aCur =>
    if admissible c sp rot a1 a2 then
      let dpos := wrapHalf (offset sp rot a1 a2)
      match lookup c.thr (vec 1 1 1) aCur (fun _ => True) dpos with
      | .error e => .error e
      | .ok none => candLoop c sp rot a1 l (aCur ++ [dpos])
      | .ok (some _) => candLoop c sp rot a1 l aCur
    else candLoop c sp rot a1 l aCur

/-- Symmetries.cpp:463-479: offsets that work for one atom by itself. -/
def candidates (c : Cfg) (sp : Species) (rot : Mat Int) (a1 : Nat) : Res (List (V3 ℝ)) :=
  candLoop c sp rot a1 (List.range sp.n) []

/-- Symmetries.cpp:489-491: offsets of the first list found in the second. -/
def keep (thr : ℝ) (aCur : List (V3 ℝ)) : List (V3 ℝ) → Res (List (V3 ℝ))
  | [] => .ok []
  | a :: l =>
    match lookup thr (vec 1 1 1) aCur (fun _ => True) a with
    | .error e => .error e
    | .ok r =>
      match keep thr aCur l with
      | .error e => .error e
      | .ok l' => .ok (if r = none then l' else a :: l')

/-- Symmetries.cpp:460-496: loop over the atoms of a species. The state is `none` while `firstAtom` is set (then `aArr` is empty),
and `some aArr` afterwards. -/
def atomLoop (c : Cfg) (sp : Species) (rot : Mat Int) : List Nat → Option (List (V3 ℝ)) → Res (Option (List (V3 ℝ)))
  | [], st => .ok st
  | a1 :: l, st =>
    match candidates c sp rot a1 with
    | .error e => .error e
    | .ok aCur =>
      match st with
      | none => atomLoop c sp rot l (some aCur)
      | some aArr =>
        match (if aCur = [] then (.ok [] : Res (List (V3 ℝ))) else keep c.thr aCur aArr) with
        | .error e => .error e
        | .ok aNext => if aNext = [] then .ok (some []) else atomLoop c sp rot l (some aNext)

/-- Symmetries.cpp:458-498: loop over the species, left as soon as `aArr` is empty (line 497). -/
def speciesLoop (c : Cfg) (rot : Mat Int) : List Species → Option (List (V3 ℝ)) → Res (Option (List (V3 ℝ)))
  | [], st => .ok st
  | sp :: l, st =>
    match atomLoop c sp rot (List.range sp.n) st with
    | .error e => .error e
    | .ok st' => if st' = none ∨ st' = some [] then .ok st' else speciesLoop c rot l st'

/-- Symmetries.cpp:509-517: sum of the corrections over the atoms of a species; the failed assertion stops the program. -/
def refineLoop (c : Cfg) (sp : Species) (rot : Mat Int) (a : V3 ℝ) : List Nat → V3 ℝ → Res (V3 ℝ)
  | [], daSum => .ok daSum
  | a1 :: l, daSum =>
    let pos1rot : V3 ℝ := fun k => mulMV (castMat rot) (sp.pos a1) k + a k
    match lookup c.thr sp.S ((List.range sp.n).map sp.pos) (momOk c sp rot a1) pos1rot with
    | .error e => .error e
    | .ok none => .error .die
    | .ok (some a2) => refineLoop c sp rot a l fun k => daSum k + wrapHalf (fun k => sp.pos a2 k - pos1rot k) k

/-- Symmetries.cpp:506-518: loop over the species. -/
def refineSum (c : Cfg) (rot : Mat Int) (a : V3 ℝ) : List Species → V3 ℝ → Res (V3 ℝ)
  | [], daSum => .ok daSum
  | sp :: l, daSum =>
    match refineLoop c sp rot a (List.range sp.n) daSum with
    | .error e => .error e
    | .ok daSum' => refineSum c rot a l daSum'

/-- Number of atoms: `nAtoms` of Symmetries.cpp:505, 516. -/
def nAtoms (l : List Species) : Nat := (l.map Species.n).sum

/-- Symmetries.cpp:502-520: refine the offsets. -/
def refine (c : Cfg) (rot : Mat Int) : List (V3 ℝ) → Res (List (Op ℝ))
  | [] => .ok []
  | a :: l =>
    match refineSum c rot a c.species (fun _ => 0) with
    | .error e => .error e
    | .ok daSum =>
      match refine c rot l with
      | .error e => .error e
      | .ok ops => .ok (⟨rot, fun k => a k + daSum k / (nAtoms c.species : ℝ)⟩ :: ops)

/-- Symmetries.cpp:452-521: operations with a given rotation. -/
def withRot (c : Cfg) (rot : Mat Int) : Res (List (Op ℝ)) :=
  match speciesLoop c rot c.species none with
  | .error e => .error e
  | .ok none => .ok [⟨rot, vec 0 0 0⟩]
  | .ok (some aArr) => refine c rot aArr

/-- Symmetries.cpp:449-526 `findSpaceGroup`. -/
def findSpaceGroup (c : Cfg) : List (Mat Int) → Res (List (Op ℝ))
  | [] => .ok []
  | rot :: l =>
    match withRot c rot with
    | .error e => .error e
    | .ok ops =>
      match findSpaceGroup c l with
      | .error e => .error e
      | .ok ops' => .ok (ops ++ ops')

/-- Symmetries.cpp:395-407: operations kept in an electric field with ramp and wave components (covariant lattice coordinates). -/
def fieldFilter (thr : ℝ) (ramp wave : V3 ℝ) (sym : List (Op ℝ)) : List (Op ℝ) :=
  sym.filter fun op =>
    ¬(len (fun k => ramp k - mulVM ramp (castMat op.rot) k) > len ramp * thr) ∧
    ¬(len (fun k => wave k - mulVM wave (castMat op.rot) k) > len wave * thr) ∧
    ¬(|dot op.a wave| > len wave * thr)

/-- Symmetries.cpp:409-428: operations kept with an atom at `x` displaced along `d` (lattice coordinates). -/
def atomFilter (thr : ℝ) (x d : V3 ℝ) (sym : List (Op ℝ)) : List (Op ℝ) :=
  sym.filter fun op =>
    ¬(len (fun k => mulMV (castMat op.rot) x k + op.a k - x k) > thr) ∧
    ¬(len (fun k => mulMV (castMat op.rot) d k - d k) > len d * thr)

/-- `std::swap(sym[0], sym[i])`. -/
def swap0 (sym : List (Op ℝ)) (i : Nat) : List (Op ℝ) :=
  match sym[0]?, sym[i]? with
  | some x, some y => (sym.set 0 y).set i x
  | _, _ => sym

/-- Symmetries.cpp:585-591 `sortSymmetries`. -/
def sortSymmetries (sym : List (Op ℝ)) : List (Op ℝ) :=
  (List.range' 1 (sym.length - 1)).foldl (fun s (i : Nat) =>
    match s[i]? with
    | some op => if op.rot = (Op.one : Op ℝ).rot ∧ op.a = (Op.one : Op ℝ).a then swap0 s i else s
    | none => s) sym

/-- State of the loop over the atoms of a species in `initAtomMaps`: `atomMap[sp]` and `datpos`. -/
structure MapState where
  atomMap : Nat → Nat → Nat
  datpos : Nat → V3 ℝ

/-- Symmetries.cpp:709-725: loop over the operations for atom `a1`; `nSym` is `sym.size()`. -/
def opLoop (c : Cfg) (sp : Species) (nSym : Nat) (a1 : Nat) : List (Op ℝ × Nat) → MapState → Res MapState
  | [], s => .ok s
  | (op, iRot) :: l, s =>
    let idealPos : V3 ℝ := fun k => mulMV (castMat op.rot) (sp.pos a1) k + op.a k
    match lookup c.thr sp.S ((List.range sp.n).map sp.pos) (fun _ => True) idealPos with
    | .error e => .error e
    | .ok none => .error .die
    | .ok (some a2) =>
      if isEquivalent c.thr (sp.con a1) (sp.con a2) (rotCart c.R op.rot) then
        opLoop c sp nSym a1 l
          { atomMap := fun a q => if a = a1 ∧ q = iRot then a2 else s.atomMap a q
            datpos := fun a => if a = a2 then
                (fun k => s.datpos a k + (1 / (nSym : ℝ)) * wrapHalf (fun k => idealPos k - sp.pos a2 k) k) else s.datpos a }
      else .error .die

/-- Symmetries.cpp:704-727: loop over the atoms of a species. -/
def mapLoop (c : Cfg) (sp : Species) (sym : List (Op ℝ)) : List Nat → MapState → Res MapState
  | [], s => .ok s
  | a1 :: l, s =>
    match opLoop c sp sym.length a1 sym.zipIdx s with
    | .error e => .error e
    | .ok s' => mapLoop c sp sym l s'

/-- Symmetries.cpp:697-735: maps and symmetrised positions of one species. -/
def mapSpecies (c : Cfg) (sym : List (Op ℝ)) (sp : Species) : Res ((Nat → Nat → Nat) × (Nat → V3 ℝ)) :=
  match mapLoop c sp sym (List.range sp.n) ⟨fun _ _ => 0, fun _ _ => 0⟩ with
  | .error e => .error e
  | .ok s => .ok (s.atomMap, fun a k => sp.pos a k + s.datpos a k)

/-- Symmetries.cpp:691-741 `initAtomMaps`: one entry per species. -/
def initAtomMaps (c : Cfg) (sym : List (Op ℝ)) : List Species → Res (List ((Nat → Nat → Nat) × (Nat → V3 ℝ)))
  | [] => .ok []
  | sp :: l =>
    match mapSpecies c sym sp with
    | .error e => .error e
    | .ok r =>
      match initAtomMaps c sym l with
      | .error e => .error e
      | .ok rs => .ok (r :: rs)

end
end Jdftx.FindGroup
