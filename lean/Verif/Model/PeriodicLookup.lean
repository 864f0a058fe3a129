import Verif.Model.Mat3
import Verif.Model.Outcome
import Mathlib.Algebra.Order.Floor.Defs
import Mathlib.Analysis.SpecialFunctions.Trigonometric.Basic

/-!
# Model of the periodic look-up table (jdftx/core/LatticeUtils.h: PeriodicLookup)

Real arithmetic is exact; conversions to `int` do not overflow. The mesh counts `S` are any positive numbers satisfying the
assertion of the constructor (line 116); how they are derived from the metric is not modelled.
-/
namespace Jdftx.PL
open Jdftx.M3
noncomputable section
open Classical

/-- LatticeUtils.h:101-102: wrap one mesh coordinate. -/
def wrap (S iv : Int) : Int :=
  let iv := if iv < 0 then iv + S else iv
  if iv ≥ S then iv - S else iv

/-- LatticeUtils.h:99-105 `meshIndex`. -/
def meshIndex (S iv : V3 Int) : Int :=
  wrap (S 0) (iv 0) + S 0 * (wrap (S 1) (iv 1) + S 1 * wrap (S 2) (iv 2))

/-- `std::vector::operator[]` with an out-of-range index being undefined. -/
def at? {α : Type} (l : List α) (i : Int) : Res α :=
  if i < 0 then .error .ub else match l[i.toNat]? with | some x => .ok x | none => .error .ub

/-- vector3.h:148-152 `circDistanceSquared`, with scalar.h:122 `cis` and the squared modulus `norm()`. -/
def circDistanceSquared (a b : V3 ℝ) : ℝ :=
  let t (k : Fin 3) := (Real.cos (2 * Real.pi * a k) - Real.cos (2 * Real.pi * b k)) ^ 2
    + (Real.sin (2 * Real.pi * a k) - Real.sin (2 * Real.pi * b k)) ^ 2
  t 0 + t 1 + t 2

/-- LatticeUtils.h:130-131, 142-144: `v -= floor(v)`. -/
def frac (v : ℝ) : ℝ := v - (Int.floor v : ℝ)

/-- LatticeUtils.h:126-132: mesh cell of a point. -/
def cellOf (S : V3 Int) (v : V3 ℝ) : V3 Int := fun k => Int.floor (frac (v k) * (S k : ℝ) + 0.5)

/-- LatticeUtils.h:126-134 `addPoint`. -/
def addPoint (S : V3 Int) (indices : List (List Nat)) (iPoint : Nat) (v : V3 ℝ) : Res (List (List Nat)) :=
  let i := meshIndex S (cellOf S v)
  match at? indices i with
  | .error e => .error e
  | .ok l => .ok (indices.set i.toNat (l ++ [iPoint]))

/-- LatticeUtils.h:120-121 (and later external calls): add points in order, the first with index `i`. -/
def addPoints (S : V3 Int) : Nat → List (V3 ℝ) → List (List Nat) → Res (List (List Nat))
  | _, [], indices => .ok indices
  | i, v :: vs, indices =>
    match addPoint S indices i v with
    | .error e => .error e
    | .ok indices' => addPoints S (i + 1) vs indices'

/-- LatticeUtils.h:119: `indices.resize(S[0]*S[1]*S[2])`. -/
def emptyTable (S : V3 Int) : List (List Nat) := List.replicate (S 0 * S 1 * S 2).toNat []

/-- `for(i=a; i<=b; i++)` -/
def intRange (a b : Int) : List Int := (List.range (b + 1 - a).toNat).map fun n : Nat => a + (n : Int)

/-- LatticeUtils.h:141-149: the cells examined, in order. -/
def queryCells (thr : ℝ) (S : V3 Int) (v : V3 ℝ) : List (V3 Int) :=
  let ivMin (k : Fin 3) : Int := Int.floor ((frac (v k) - thr) * (S k : ℝ) + 0.5)
  let ivMax (k : Fin 3) : Int := Int.floor ((frac (v k) + thr) * (S k : ℝ) + 0.5)
  (intRange (ivMin 0) (ivMax 0)).flatMap fun i0 => (intRange (ivMin 1) (ivMax 1)).flatMap fun i1 =>
    (intRange (ivMin 2) (ivMax 2)).map fun i2 => vec i0 i1 i2

/-- LatticeUtils.h:150-153: look through one cell. `tagOk` is the tag condition, `points` the coordinates. -/
def findIn (thrSq : ℝ) (points : List (V3 ℝ)) (tagOk : Nat → Prop) (v : V3 ℝ) : List Nat → Res (Option Nat)
  | [] => .ok none
  | i :: is =>
    match points[i]? with
    | none => .error .ub
    | some p => if circDistanceSquared (fun k => frac (v k)) p < thrSq ∧ tagOk i then .ok (some i) else findIn thrSq points tagOk v is

/-- LatticeUtils.h:147-154: the loop over cells. -/
def findCells (thrSq : ℝ) (S : V3 Int) (points : List (V3 ℝ)) (indices : List (List Nat)) (tagOk : Nat → Prop) (v : V3 ℝ) :
    List (V3 Int) → Res (Option Nat)
  | [] => .ok none
  | iv :: ivs =>
    match at? indices (meshIndex S iv) with
    | .error e => .error e
    | .ok l =>
      match findIn thrSq points tagOk v l with
      | .error e => .error e
      | .ok (some i) => .ok (some i)
      | .ok none => findCells thrSq S points indices tagOk v ivs

/-- LatticeUtils.h:138-155 `find`; `none` is `string::npos`. -/
def find (thr : ℝ) (S : V3 Int) (points : List (V3 ℝ)) (indices : List (List Nat)) (tagOk : Nat → Prop) (v : V3 ℝ) :
    Res (Option Nat) :=
  findCells (thr * thr) S points indices tagOk v (queryCells thr S v)

/-- A table built by the constructor from `points` (LatticeUtils.h:110-122) or by adding points one at a time, then queried. -/
def lookup (thr : ℝ) (S : V3 Int) (points : List (V3 ℝ)) (tagOk : Nat → Prop) (v : V3 ℝ) : Res (Option Nat) :=
  match addPoints S 0 points (emptyTable S) with
  | .error e => .error e
  | .ok indices => find thr S points indices tagOk v

end
end Jdftx.PL
