import Verif.Model.Mat3
import Mathlib.Algebra.Field.Defs
import Mathlib.Algebra.Module.Pi
import Mathlib.Algebra.Module.LinearMap.Defs
import Mathlib.Algebra.BigOperators.Group.Finset.Defs
import Mathlib.Algebra.BigOperators.Fin
import Mathlib.Data.Fintype.Basic
import Mathlib.Order.Defs.LinearOrder
import Mathlib.Data.List.Dedup

/-!
# Model of the constraints on ionic motion

`SpeciesInfo::Constraint` (jdftx/electronic/SpeciesInfo.cpp:61-101) and `IonicMinimizer::constrain`
(jdftx/electronic/IonicMinimizer.cpp:344-401). The ragged array `[species][atom]` is flattened to one list of `n` atoms
(the code visits species and atoms in that order). Group labels are elements of any linear order; the code uses strings
and `std::map`, which visits them in increasing order.
-/
namespace Jdftx.Ion
open Jdftx.M3

variable {K L : Type}

/-- SpeciesInfo.h:63 `ConstraintType`; the vector `d` and the list `hyperplane` (SpeciesInfo.h:62-64) are arguments of
the cases that use them. -/
inductive CType (K L : Type) where
  | none
  | linear (d : V3 K)
  | planar (d : V3 K)
  | hyperPlane (planes : List (V3 K × L))

/-- SpeciesInfo.h:59-66 `Constraint`. -/
structure Constraint (K L : Type) where
  moveScale : K
  type : CType K L

/-- One vector per atom: IonicMinimizer.h `IonicGradient`. -/
abbrev Motion (K : Type) (n : Nat) := Fin n → V3 K

section
variable [Field K] [DecidableEq K]

/-- SpeciesInfo.cpp:61-68 `getDimension`. -/
def getDimension (c : Constraint K L) : Nat :=
  if c.moveScale = 0 then 0 else
  match c.type with
  | .linear _ => 1
  | .planar _ => 2
  | _ => 3

/-- SpeciesInfo.cpp:94-101 `Constraint::operator()`. -/
def applyOne (c : Constraint K L) (g : V3 K) : V3 K :=
  if c.moveScale = 0 then 0 else
  match c.type with
  | .linear d => fun i => dot g d * d i / dot d d
  | .planar d => fun i => g i - dot g d * d i / dot d d
  | _ => g

/-- IonicMinimizer.cpp:176-183 (constructor): is any atom constrained? `external` is line 185-186. -/
def anyConstrained {n : Nat} (cs : Fin n → Constraint K L) (external : Bool) : Bool :=
  external || (List.finRange n).any fun a =>
    decide (getDimension (cs a) < 3) || (match (cs a).type with | .hyperPlane _ => true | _ => false)

/-- IonicMinimizer.cpp:354-358: per-atom constraints. -/
def perAtom {n : Nat} (cs : Fin n → Constraint K L) (x : Motion K n) : Motion K n := fun a => applyOne (cs a) (x a)

/-- Inner product of two motions: `dot(IonicGradient, IonicGradient)` (IonicMinimizer.cpp:142-150). -/
def dotM {n : Nat} (x y : Motion K n) : K := ∑ a, dot (x a) (y a)

variable [DecidableEq L]

/-- IonicMinimizer.cpp:367-375: entry of atom in the group `l`; a later entry with the same label overwrites an earlier
one, atoms without an entry keep zero. -/
def groupEntry (c : Constraint K L) (l : L) : V3 K :=
  match c.type with
  | .hyperPlane planes => planes.foldl (fun acc p => if p.2 = l then p.1 else acc) 0
  | _ => 0

/-- IonicMinimizer.cpp:362-377: normal vector of group `l` in the space of all motions. -/
def groupVec {n : Nat} (cs : Fin n → Constraint K L) (l : L) : Motion K n := fun a => groupEntry (cs a) l

/-- Labels of one atom. -/
def labelsOf (c : Constraint K L) : List L :=
  match c.type with
  | .hyperPlane planes => planes.map Prod.snd
  | _ => []

end

/-- Insertion into a sorted duplicate-free list (keys of `std::map`). -/
def insertKey [LinearOrder L] (l : L) : List L → List L
  | [] => [l]
  | k :: ks => if l < k then l :: k :: ks else if l = k then k :: ks else k :: insertKey l ks

/-- IonicMinimizer.cpp:362-377: keys of the map of groups, in the order of iteration. -/
def groupLabels [LinearOrder L] {n : Nat} (cs : Fin n → Constraint K L) : List L :=
  ((List.finRange n).flatMap fun a => labelsOf (cs a)).foldl (fun ks l => insertKey l ks) []

section
variable [Field K] [LinearOrder K]

/-- IonicMinimizer.cpp:380-382: subtract the component along `D` unless `D` is negligible (`eps` is `1e-10`). -/
def projectOut {n : Nat} (eps : K) (D x : Motion K n) : Motion K n :=
  if dotM D D > eps then x + (-(dotM D x) / dotM D D) • D else x

/-- IonicMinimizer.cpp:385-397: subtract the mean over all atoms. -/
def subtractMean {n : Nat} (x : Motion K n) : Motion K n := fun a => x a - (1 / (n : K)) • ∑ b, x b

/-- IonicMinimizer.cpp:353-397, between the two symmetrisations. -/
def constrainCore [LinearOrder L] {n : Nat} (eps : K) (external : Bool) (cs : Fin n → Constraint K L) (x : Motion K n) :
    Motion K n :=
  let x1 := perAtom cs x
  let x2 := (groupLabels cs).foldl (fun y l => projectOut eps (groupVec cs l) y) x1
  if anyConstrained cs external then x2 else subtractMean x2

/-- IonicMinimizer.cpp:344-401 `constrain`. `symm` is the macro `SymmetrizeCartesian` of lines 346-350. -/
def constrain [LinearOrder L] {n : Nat} (eps : K) (external : Bool) (cs : Fin n → Constraint K L)
    (symm : Motion K n → Motion K n) (x : Motion K n) : Motion K n :=
  symm (constrainCore eps external cs (symm x))

end

end Jdftx.Ion
