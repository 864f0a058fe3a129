import Verif.Model.Phonon
import Verif.Model.Basis
import Verif.Model.Outcome

/-!
# Model of the displacements of a phonon calculation and of the use of symmetries (jdftx/phonon/Phonon_init.cpp, Phonon_supercell.cpp)

Exact real arithmetic. Atoms of a species are numbered as in the supercell: `at + nAt*unit` for atom `at` of the unit cell and unit cell `unit`
(Phonon_init.cpp:147-164). The part for the subspace Hamiltonians is not modelled.
-/
namespace Jdftx.PhonPert
noncomputable section
open M3
open Phonon (prodSup getCell getUnit)

/-- Supercell, number of species, number of atoms of each species in the unit cell, and threshold (`symmThreshold`). -/
structure Cell where
  S : Box.Size
  nSp : Nat
  nAt : Nat → Nat
  tol : ℝ

/-- Symmetries of the supercell: Cartesian rotations (`symSupCart`) and images of atoms (`getAtomMap()[sp][at][iSym]`). -/
structure Ops where
  nSym : Nat
  rot : Nat → Mat ℝ
  atomMap : Nat → Nat → Nat → Nat

/-- Phonon.h:86-99 `Perturbation`. -/
structure Pert where
  sp : Nat
  at' : Nat
  dir : V3 ℝ
  weight : ℝ

/-! ## Directions -/

/-- Phonon_init.cpp:35-42 `nStabilizer`. -/
def nStabilizer (tol : ℝ) (n : V3 ℝ) (o : Ops) : Nat :=
  open Classical in
  ((List.range o.nSym).filter fun i => decide (CellMap.lenSq (n - mulMV (o.rot i) n) < tol ^ 2 * CellMap.lenSq n)).length

/-- `std::multimap::insert`: after the entries of the same key. -/
def insert (k : Nat) (v : V3 ℝ) : List (Nat × V3 ℝ) → List (Nat × V3 ℝ)
  | [] => [(k, v)]
  | e :: l => if k < e.1 then (k, v) :: e :: l else e :: insert k v l

/-- `n *= (1./n.length())`. -/
def normalized (n : V3 ℝ) : V3 ℝ := (1 / Basis.length n) • n

/-- Phonon_init.cpp:208-211: the combinations, in the order of the loops. -/
def combos : List Box.IV :=
  ([0, 1] : List Int).flatMap fun x => ([-1, 0, 1] : List Int).flatMap fun y => (([-1, 0, 1] : List Int).map fun z => (⟨x, y, z⟩ : Box.IV)).filter
    fun c => c.x * c.x + c.y * c.y + c.z * c.z ≠ 0

/-- Phonon_init.cpp:206-218: `dirList`. -/
def dirList (tol : ℝ) (R : Mat ℝ) (o : Ops) : List (Nat × V3 ℝ) :=
  combos.foldl (fun l c =>
    let n := normalized (mulMV R (CellMap.toV c))
    let l := insert (nStabilizer tol n o) n l
    let n := normalized (mulVM (CellMap.toV c) (Basis.inv R))
    insert (nStabilizer tol n o) n l) []

/-- Phonon_init.cpp:220-228: `dirList2`. -/
def dirList2 (tol : ℝ) (o : Ops) (b0 : V3 ℝ) (l : List (Nat × V3 ℝ)) : List (Nat × V3 ℝ) :=
  open Classical in
  l.foldl (fun l e =>
    let n := e.2 - dot e.2 b0 • b0
    if CellMap.lenSq n < tol ^ 2 then l else
    let n := normalized n
    insert (nStabilizer tol n o) n l) []

/-- Phonon_init.cpp:203-231: `dirBasis`; `rbegin()` of an empty list is undefined. -/
def dirBasis (tol : ℝ) (R : Mat ℝ) (o : Ops) : Res (Fin 3 → V3 ℝ) :=
  match (dirList tol R o).getLast? with
  | none => .error .ub
  | some e0 => match (dirList2 tol o e0.2 (dirList tol R o)).getLast? with
    | none => .error .ub
    | some e1 => .ok fun i => match i with | 0 => e0.2 | 1 => e1.2 | 2 => cross e0.2 e1.2

/-! ## Irreducible displacements -/

/-- Phonon_init.cpp:264-266: `nHat`. -/
def nHat (at' : Nat) (dir : V3 ℝ) (k : Nat) : ℝ := if k / 3 = at' then dir (Fin.ofNat 3 k) else 0

/-- Phonon_init.cpp:261-267: `proj[iPert]`. -/
def projOf (c : Cell) (o : Ops) (p : Pert) (k l : Nat) : ℝ :=
  ∑ i ∈ Finset.range o.nSym,
    let a := o.atomMap p.sp p.at' i % c.nAt p.sp
    let dir := mulMV (o.rot i) p.dir
    p.weight * nHat a dir k * nHat a dir l

/-- Phonon_init.cpp:268-269: `isEven[iPert]`. -/
def isEven (c : Cell) (o : Ops) (p : Pert) : Prop :=
  ∃ i < o.nSym, o.atomMap p.sp p.at' i % c.nAt p.sp = p.at' ∧ Basis.length (mulMV (o.rot i) p.dir + p.dir) < c.tol

/-- Phonon_init.cpp:257-260: `pertSp`. -/
def pertSp (c : Cell) (o : Ops) (B : Fin 3 → V3 ℝ) (sp : Nat) : List Pert :=
  (List.range (c.nAt sp * 3)).map fun i => { sp := sp, at' := i / 3, dir := B (Fin.ofNat 3 i), weight := 1 / (o.nSym : ℝ) }

/-- `nrm2` of a square matrix. -/
def nrm2 (n : Nat) (A : Nat → Nat → ℝ) : ℝ := Real.sqrt (∑ k ∈ Finset.range n, ∑ l ∈ Finset.range n, A k l ^ 2)

/-- A displacement together with its projection. -/
structure Entry where
  p : Pert
  proj : Nat → Nat → ℝ

/-- Phonon_init.cpp:276-281: one displacement is merged with the first irreducible one of the same projection, or added. Simplification: the list holds the irreducible
ones only, instead of a flag for each. -/
def merge (tol : ℝ) (n : Nat) (e : Entry) : List Entry → List Entry
  | [] => [e]
  | k :: l => open Classical in
    if nrm2 n (fun a b => e.proj a b - k.proj a b) < tol then { k with p := { k.p with weight := k.p.weight + e.p.weight } } :: l
    else k :: merge tol n e l

/-- Phonon_init.cpp:284-292: signed displacements. -/
def signed (c : Cell) (o : Ops) (useVPT : Bool) (p : Pert) : List Pert :=
  open Classical in
  if isEven c o p ∨ useVPT = true then [p]
  else
    let p := { p with weight := p.weight * 0.5 }
    [p, { p with dir := (-1 : ℝ) • p.dir }]

/-- Phonon_init.cpp:251-293: the displacements of one species. The assertion of line 273 stops the program. -/
def findSp (c : Cell) (o : Ops) (B : Fin 3 → V3 ℝ) (useVPT : Bool) (sp : Nat) : Res (List Pert) :=
  let n := c.nAt sp * 3
  let es := (pertSp c o B sp).map fun p => (⟨p, projOf c o p⟩ : Entry)
  let projTot := fun k l => (es.map fun e => e.proj k l).sum
  open Classical in
  if nrm2 n (fun k l => projTot k l - if k = l then 1 else 0) < c.tol then
    .ok ((es.foldl (fun l e => merge c.tol n e l) []).flatMap fun e => signed c o useVPT e.p)
  else .error .die

/-- Phonon_init.cpp:248-294: `perturbations`. -/
def find (c : Cell) (o : Ops) (B : Fin 3 → V3 ℝ) (useVPT : Bool) : Res (List Pert) :=
  (List.range c.nSp).foldlM (fun l sp => do
    let m ← findSp c o B useVPT sp
    pure (l ++ m)) []

/-! ## Accumulation -/

/-- Vectors by species and atom of the supercell (`IonicGradient`). -/
abbrev Grad := Nat → Nat → V3 ℝ

/-- `dgrad`, by species, atom and direction of the mode. -/
abbrev DGrad := Nat → Nat → Fin 3 → Grad

/-- Number of atoms of a species in the supercell. -/
def nTot (c : Cell) (sp : Nat) : Nat := c.nAt sp * prodSup c.S

/-- Phonon_supercell.cpp:176-184: the mean is subtracted. -/
def meanFree (c : Cell) (f : Grad) : Grad :=
  let nAtomsTot := ∑ sp ∈ Finset.range c.nSp, nTot c sp
  let fMean := (1 / (nAtomsTot : ℝ)) • ∑ sp ∈ Finset.range c.nSp, ∑ a ∈ Finset.range (nTot c sp), f sp a
  fun sp a => f sp a - fMean

/-- `dgrad[iMode][sp2][at2] += v`. -/
def addAt (g : DGrad) (sp a : Nat) (d : Fin 3) (sp2 a2 : Nat) (v : V3 ℝ) : DGrad :=
  fun sp' a' d' sp2' a2' => if sp' = sp ∧ a' = a ∧ d' = d ∧ sp2' = sp2 ∧ a2' = a2 then g sp' a' d' sp2' a2' + v else g sp' a' d' sp2' a2'

/-- Phonon_supercell.cpp:244-246: `at2rot`. -/
def at2rot (c : Cell) (nAtoms2 : Nat) (cellOffset : Box.IV) (a : Nat) : Nat :=
  let unit2rot := a / nAtoms2
  let cell := getCell c.S unit2rot
  ((a : Int) + nAtoms2 * (getUnit c.S ⟨cell.x + cellOffset.x, cell.y + cellOffset.y, cell.z + cellOffset.z⟩ - unit2rot)).toNat

/-- Phonon_supercell.cpp:217-251: contributions of the images of one displacement to `dgrad`. The modes of an atom are the unit vectors (Phonon_init.cpp:240-242), so
`dot(modes[iMode2].dir, mode.dir)` is a component of `mode.dir`. -/
def accumulate (c : Cell) (o : Ops) (p : Pert) (f : Grad) (g : DGrad) : DGrad :=
  (List.range o.nSym).foldl (fun g i =>
    let nAtoms := c.nAt p.sp
    let unit := o.atomMap p.sp p.at' i / nAtoms
    let a := o.atomMap p.sp p.at' i - nAtoms * unit
    let dir := mulMV (o.rot i) p.dir
    let cell := getCell c.S unit
    let cellOffset : Box.IV := ⟨-cell.x, -cell.y, -cell.z⟩
    (List.range c.nSp).foldl (fun g sp2 =>
      (List.range (nTot c sp2)).foldl (fun g a2 =>
        let a2r := at2rot c (c.nAt sp2) cellOffset (o.atomMap sp2 a2 i)
        let Frot := mulMV (o.rot i) (f sp2 a2)
        (List.finRange 3).foldl (fun g d => addAt g p.sp a d sp2 a2r ((p.weight * dir d) • Frot)) g) g) g) g

/-- Phonon.cpp: the gradients of all modes from those of the irreducible displacements; `f sp at dir` is the (finite difference or perturbative) derivative measured
for a displacement (`dgrad_pert`). -/
def run (c : Cell) (o : Ops) (B : Fin 3 → V3 ℝ) (useVPT : Bool) (f : Nat → Nat → V3 ℝ → Grad) : Res DGrad := do
  let ps ← find c o B useVPT
  pure (ps.foldl (fun g p => accumulate c o p (meanFree c (f p.sp p.at' p.dir)) g) fun _ _ _ _ _ => 0)

/-- Phonon_supercell.cpp:167 (and 89-90, where atom `at` is displaced by `dr*dir`): the finite difference. -/
def fdiff (dr : ℝ) (grad : Nat → Nat → V3 ℝ → Grad) (grad0 : Grad) (sp a : Nat) (dir : V3 ℝ) : Grad :=
  fun sp2 a2 => (1 / dr) • (grad sp a (dr • dir) sp2 a2 - grad0 sp2 a2)

/-! ## Manual symmetries -/

/-- A symmetry operation in lattice coordinates (Symmetries.h `SpaceGroupOp`). -/
structure Op where
  rot : Mat Int
  a : V3 ℝ

/-- Phonon_init.cpp:176-196: symmetries of the supercell from those specified for the unit cell. -/
def manualSup (tol : ℝ) (S : Box.Size) (ops : List Op) : List Op :=
  let D : Mat ℝ := M3.diag (S.s0 : ℝ) S.s1 S.s2
  let invD := Basis.inv D
  open Classical in
  ops.filterMap fun op =>
    let t := mulMM (mulMM D (castMat op.rot)) invD
    let rot : Mat Int := fun i j => round (t i j)
    if ∀ i j, |t i j - rot i j| ≤ tol then some { rot := rot, a := mulVM op.a invD } else none

end
end Jdftx.PhonPert
