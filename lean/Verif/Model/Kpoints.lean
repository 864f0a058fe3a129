import Verif.Model.Mat3
import Verif.Model.Outcome
import Mathlib.Algebra.Order.Floor.Defs
import Mathlib.Algebra.Order.Field.Basic
import Mathlib.Algebra.BigOperators.Group.List.Basic

/-!
# Model of k-point folding (jdftx/electronic/ElecInfo.cpp:431-469)

Coordinates and weights are elements of an ordered field with a floor function (exact arithmetic).
-/
namespace Jdftx.Kpts
open Jdftx.M3

variable {K : Type} [Field K] [LinearOrder K] [IsStrictOrderedRing K] [FloorRing K]

/-- electronic/ElecInfo.h: `QuantumNumber` (the members used here). -/
structure QN (K : Type) where
  k : V3 K
  weight : K

/-- C library `fmod`: remainder after division truncated towards zero. -/
def fmod (x y : K) : K := x - (if x / y < 0 then ((⌈x / y⌉ : Int) : K) else ((⌊x / y⌋ : Int) : K)) * y

/-- ElecInfo.cpp:431-435 `fmodPositive`. -/
def fmodPositive (x y : K) : K :=
  let ret := fmod x y
  if ret < 0 then ret + |y| else ret

/-- ElecInfo.cpp:459-460: one folded coordinate. -/
def foldCoord (k : K) (i : Int) (kfold : Int) : K :=
  let q := (k + (i : K)) / (kfold : K)
  if q > 1 / 2 then q - 1 else q

/-- `for(i=0; i<n; i++)` over `int`. -/
def intRange (n : Int) : List Int := (List.range n.toNat).map fun i : Nat => (i : Int)

/-- ElecInfo.cpp:455-457: the folding indices in loop order. -/
def foldIndices (kfold : V3 Int) : List (V3 Int) :=
  (intRange (kfold 0)).flatMap fun i0 => (intRange (kfold 1)).flatMap fun i1 => (intRange (kfold 2)).map fun i2 => vec i0 i1 i2

/-- ElecInfo.cpp:442-443: regularised k-point. -/
def regularize (q : QN K) : QN K := { q with k := fun c => fmodPositive (q.k c) 1 }

/-- ElecInfo.cpp:453-463: the points folded from one input point. -/
def foldOne (kfold : V3 Int) (q : QN K) : List (QN K) :=
  let nFold : Int := kfold 0 * kfold 1 * kfold 2
  (foldIndices kfold).map fun i => ⟨fun c => foldCoord (q.k c) (i c) (kfold c), q.weight / (nFold : K)⟩

/-- ElecInfo.cpp:437-469 `kpointsFold`. -/
def kpointsFold (kfold : V3 Int) (qnums : List (QN K)) : Res (List (QN K)) :=
  let wSum := (qnums.map QN.weight).foldl (· + ·) 0
  let qnums := qnums.map regularize
  if |wSum - 1| > 1 / 10 ^ 12 then .error .die
  else .ok (qnums.flatMap (foldOne kfold))

end Jdftx.Kpts
