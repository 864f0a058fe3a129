import Verif.Model.Kpoints
import Verif.Model.KmapPack
import Verif.Model.TaskDivision
import Verif.Model.PeriodicLookup

/-!
# Model of k-mesh reduction (jdftx/electronic/Symmetries.cpp:77-157 `Symmetries::reduceKmesh`)

Only the rotation parts of the symmetry operations enter. Printing is not modelled. The look-up table is rebuilt for each query
(the code builds it once; it is never modified). `size_t` indices and `int` symmetry indices are natural numbers until they are
packed. The collective reductions combine the arrays of all processes, which then continue with identical data.
-/
namespace Jdftx.RK
open Jdftx.M3 Jdftx.Kmap Jdftx.Kpts
noncomputable section
open Classical

/-- matrix3.h: `matrix3<int>(-1,-1,-1)`. -/
def inversion : Mat Int := diag (-1) (-1) (-1)

/-- Symmetries.cpp:84-93: the list of inversions to check; `useInv` is `kReduceUseInversion and spinType != SpinVector`. -/
def invertListInit (useInv : Bool) (sym : List (Mat Int)) : List Int :=
  let l : List Int := if useInv then [1, -1] else [1]
  if inversion ∈ sym then [1] else l

/-- Symmetries.cpp:104 (argument of `find`): `invert * k * rot`. -/
def image (invert : Int) (k : V3 ℝ) (rot : Mat Int) : V3 ℝ := mulVM (fun c => (invert : ℝ) * k c) (castMat rot)

/-- `std::min` on `unsigned long long`. -/
def umin (a b : BitVec 64) : BitVec 64 := if b.toNat < a.toNat then b else a

/-- The arrays `kmap` and `isSymKmesh` of one process. -/
structure Maps where
  kmap : List (BitVec 64)
  isSym : List Bool

/-- Symmetries.cpp:104-109: body of the innermost loop. -/
def visit (find : V3 ℝ → Res (Option Nat)) (qnums : List (QN ℝ)) (sym : List (Mat Int)) (m : Maps) (t : Nat × Int × Nat) : Res Maps :=
  match qnums[t.1]?, sym[t.2.2]? with
  | some q, some rot =>
    match find (image t.2.1 q.k rot) with
    | .error e => .error e
    | .ok (some iDest) =>
      match m.kmap[iDest]? with
      | none => .error .ub
      | some old => .ok { m with kmap := m.kmap.set iDest (umin old (kmapPack (BitVec.ofNat 64 t.1) t.2.1 (BitVec.ofNat 32 t.2.2))) }
    | .ok none => if t.2.1 > 0 then .ok { m with isSym := m.isSym.set t.2.2 false } else .ok m
  | _, _ => .error .ub

/-- Symmetries.cpp:101-103: the loop nest of one process in execution order. -/
def visits (start stop : Nat) (invertList : List Int) (nSym : Nat) : List (Nat × Int × Nat) :=
  (List.range' start (stop - start)).flatMap fun iSrc => invertList.flatMap fun invert => (List.range nSym).map fun iSym => (iSrc, invert, iSym)

/-- Run the loop. -/
def visitAll (find : V3 ℝ → Res (Option Nat)) (qnums : List (QN ℝ)) (sym : List (Mat Int)) : List (Nat × Int × Nat) → Maps → Res Maps
  | [], m => .ok m
  | t :: ts, m =>
    match visit find qnums sym m t with
    | .error e => .error e
    | .ok m' => visitAll find qnums sym ts m'

/-- Symmetries.cpp:96-97: initial arrays. -/
def mapsInit (n nSym : Nat) : Maps := ⟨List.replicate n (BitVec.allOnes 64), List.replicate nSym true⟩

/-- Symmetries.cpp:95-110 on process `iProc` of `nProcs`. -/
def processMaps (find : V3 ℝ → Res (Option Nat)) (qnums : List (QN ℝ)) (sym : List (Mat Int)) (invertList : List Int)
    (nProcs iProc : Nat) : Res Maps :=
  match TaskDiv.init qnums.length nProcs iProc with
  | none => .error .ub
  | some td => visitAll find qnums sym (visits td.startMine td.stopMine invertList sym.length) (mapsInit qnums.length sym.length)

/-- Symmetries.cpp:112-113: all-reduce with minimum and logical and. -/
def combine (a b : Maps) : Maps := ⟨List.zipWith umin a.kmap b.kmap, List.zipWith (· && ·) a.isSym b.isSym⟩

/-- Symmetries.cpp:95-113 over processes `0 ... nProcs-1`, reducing in rank order. -/
def reducedMaps (find : V3 ℝ → Res (Option Nat)) (qnums : List (QN ℝ)) (sym : List (Mat Int)) (invertList : List Int)
    (nProcs : Nat) : Nat → Res Maps
  | 0 => .ok (mapsInit qnums.length sym.length)
  | i + 1 =>
    match reducedMaps find qnums sym invertList nProcs i with
    | .error e => .error e
    | .ok a =>
      match processMaps find qnums sym invertList nProcs i with
      | .error e => .error e
      | .ok b => .ok (combine a b)

/-- Insertion of a key in a `std::map` (ordered, without repetition). -/
def insertKey (k : Nat) : List Nat → List Nat
  | [] => [k]
  | x :: xs => if k < x then k :: x :: xs else if k = x then x :: xs else x :: insertKey k xs

/-- Symmetries.cpp:132-138: keys of `iSrcMap` in order (the position is the reduced index, line 140). -/
def sourceKeys (kmap : List (BitVec 64)) : List Nat :=
  kmap.foldl (fun keys e => insertKey (kmapUnpack e).1.toNat keys) []

/-- Symmetries.cpp:146-147: reduced points before accumulating weights. -/
def pickSources (qnums : List (QN ℝ)) : List Nat → Res (List (QN ℝ))
  | [] => .ok []
  | s :: ss =>
    match qnums[s]?, pickSources qnums ss with
    | some q, .ok rest => .ok (q :: rest)
    | none, _ => .error .ub
    | _, .error e => .error e

/-- Symmetries.cpp:149-156: loop over destinations `iDest ...`. -/
def accumulate (keys : List Nat) : Nat → List (QN ℝ) → List (BitVec 64) → List (QN ℝ) → Res (List (QN ℝ) × List (BitVec 64))
  | iDest, q :: qs, e :: es, qRed =>
    let (iSrc, invert, iSym) := kmapUnpack e
    let iReduced := keys.idxOf iSrc.toNat
    match qRed[iReduced]? with
    | none => .error .ub
    | some r =>
      let qRed' := if iDest ≠ iSrc.toNat then qRed.set iReduced { r with weight := r.weight + q.weight } else qRed
      match accumulate keys (iDest + 1) qs es qRed' with
      | .error x => .error x
      | .ok (out, es') => .ok (out, kmapPack (BitVec.ofNat 64 iReduced) invert iSym :: es')
  | _, _, _, qRed => .ok (qRed, [])

/-- What `reduceKmesh` returns and stores: the reduced points, `kmap`, `kpointInvertList` and which symmetries the mesh has. -/
structure Reduced where
  qRed : List (QN ℝ)
  kmap : List (BitVec 64)
  invertList : List Int
  isSym : List Bool

/-- Symmetries.cpp:84-157, given the look-up function. -/
def reduceWith (find : V3 ℝ → Res (Option Nat)) (nProcs : Nat) (useInv : Bool) (sym : List (Mat Int)) (qnums : List (QN ℝ)) : Res Reduced :=
  let invertList := invertListInit useInv sym
  match reducedMaps find qnums sym invertList nProcs nProcs with
  | .error e => .error e
  | .ok m =>
    let usedInversion := m.kmap.any fun e => decide ((kmapUnpack e).2.1 < 0)
    let keys := sourceKeys m.kmap
    let invertList := if usedInversion then invertList else [1]
    match pickSources qnums keys with
    | .error e => .error e
    | .ok qRed0 =>
      match accumulate keys 0 qnums m.kmap qRed0 with
      | .error e => .error e
      | .ok (qRed, kmap) => .ok ⟨qRed, kmap, invertList, m.isSym⟩

/-- Symmetries.cpp:77-157 `reduceKmesh` for symmetry modes other than `none` (for which the points are returned as they are), with
the periodic look-up table of line 100. -/
def reduceKmesh (thr : ℝ) (S : V3 Int) (nProcs : Nat) (useInv : Bool) (sym : List (Mat Int)) (qnums : List (QN ℝ)) : Res Reduced :=
  reduceWith (fun v => PL.lookup thr S (qnums.map QN.k) (fun _ => True) v) nProcs useInv sym qnums

end
end Jdftx.RK
