import Verif.Model.Box
import Verif.Model.WignerSeitz
import Mathlib.Data.Complex.BigOperators
import Mathlib.Analysis.Complex.Trigonometric

/-!
# Model of the embedding of truncated Coulomb interactions in a larger mesh (jdftx/core/Coulomb.cpp)

Fields are functions of the array index; reciprocal-space fields are kept on the full mesh (C22 is about half meshes). The
Fourier transforms are sums with an arbitrary table of phases `E r G` and its conjugate. Real arithmetic is exact.
-/
namespace Jdftx.Embed
open Jdftx.Box Jdftx.M3 Jdftx.WS
noncomputable section
open Classical

/-- A field; the entries from the size of the mesh on are not used. -/
abbrev Fld := Nat → ℂ

/-- Coulomb.cpp:392-394: `gInfoEmbed.S`. -/
def sEmbed (isTruncated : Fin 3 → Bool) (S : Size) : Size :=
  ⟨(if isTruncated 0 then 2 else 1) * S.s0, (if isTruncated 1 then 2 else 1) * S.s1, (if isTruncated 2 then 2 else 1) * S.s2⟩

/-- Conversion between the two representations of `vector3<int>`. -/
def toV (v : IV) : V3 Int := vec v.x v.y v.z

/-- Sample counts as `vector3<int>`. -/
def sizeV (S : Size) : V3 Int := vec S.s0 S.s1 S.s2

/-- Coulomb.cpp:338, 355-356: `invS[k] = 1./S[k]`. -/
def invS (S : Size) : V3 ℝ := fun k => 1 / (sizeV S k : ℝ)

/-- Coulomb.cpp:342-343 and Util.h:182-186 `positiveRemainder` (without its limitation to 16 bits). -/
def mod1 (v : Int) (s : Nat) : Int := if v.tmod s < 0 then v.tmod s + s else v.tmod s

/-- Coulomb.cpp:340-345: the index of one point in the embedding mesh. -/
def embedPoint (tol : ℝ) (faces : List Face) (fuel : Nat) (S SE : Size) (iv : IV) : Res Int := do
  let v ← reduceMesh tol (sizeV S) (invS S) faces fuel (toV iv)
  pure (mod1 (v 2) SE.s2 + SE.s2 * (mod1 (v 1) SE.s1 + SE.s1 * mod1 (v 0) SE.s0))

/-- Coulomb.cpp:337-347 `setEmbedIndex_sub`, all threads together. -/
def embedIndex (tol : ℝ) (faces : List Face) (fuel : Nat) (S SE : Size) : Res (List Int) :=
  (rLoop S 0 (nr S)).mapM fun p => embedPoint tol faces fuel S SE p.2

/-- WignerSeitz.h:100-106: the loop of `onBoundary` with `iDir < 0`; `none` is the early `return false`. -/
def onBoundaryLoop (tol : ℝ) (R : Mat ℝ) (x : V3 ℝ) : List Face → ℝ → Option ℝ
  | [], m => some m
  | f :: fs, m =>
    if dDiff f x < -tol then none
    else
      let distSq := dDiff f x * dDiff f x * metricLengthSq (RTR R) (castV f.img)
      onBoundaryLoop tol R x fs (if distSq < m then distSq else m)

/-- WignerSeitz.h:97-108 `onBoundary`; `big` is `DBL_MAX`. -/
def onBoundary (big tol : ℝ) (R : Mat ℝ) (faces : List Face) (x : V3 ℝ) : Bool :=
  match onBoundaryLoop tol R x faces big with
  | none => false
  | some m => decide (m < tol)

/-- Coulomb.cpp:358-364: the pair entered for one point of the embedding mesh, if it is on the boundary. -/
def boundaryPair (big tol : ℝ) (R : Mat ℝ) (faces : List Face) (fuel : Nat) (Sorig S : Size) (p : Nat × IV) :
    Res (Option (Int × Nat)) := do
  let v ← reduceMesh tol (sizeV S) (invS S) faces fuel (toV p.2)
  if onBoundary big tol R faces (fun k => (v k : ℝ) * invS Sorig k) then
    pure (some (mod1 (v 2) Sorig.s2 + Sorig.s2 * (mod1 (v 1) Sorig.s1 + Sorig.s1 * mod1 (v 0) Sorig.s0), p.1))
  else pure none

/-- Coulomb.cpp:351-365 `setEmbedBoundarySymm_sub`: all pairs entered, in the order of the mesh. -/
def boundaryPairs (big tol : ℝ) (R : Mat ℝ) (faces : List Face) (fuel : Nat) (Sorig S : Size) : Res (List (Int × Nat)) := do
  let l ← (rLoop S 0 (nr S)).mapM (boundaryPair big tol R faces fuel Sorig S)
  pure (l.filterMap id)

/-- `std::multimap::insert`: after the entries with the same key. -/
def mmInsert (p : Int × Nat) : List (Int × Nat) → List (Int × Nat)
  | [] => [p]
  | q :: t => if p.1 < q.1 then p :: q :: t else q :: mmInsert p t

/-- Coulomb.cpp:363, 368: the multimap after the entries arrived in the given order (which depends on the threads). -/
def multimap (arrival : List (Int × Nat)) : List (Int × Nat) := arrival.foldl (fun m p => mmInsert p m) []

/-- Coulomb.cpp:419-427: maximal runs of entries with the same key. -/
def runs : List (Int × Nat) → List (List Nat)
  | [] => []
  | p :: t => (p.2 :: (t.takeWhile fun q => q.1 = p.1).map Prod.snd) :: runs (t.dropWhile fun q => q.1 = p.1)
  termination_by l => l.length
  decreasing_by
    have : (t.dropWhile fun q => decide (q.1 = p.1)).length ≤ t.length := (List.dropWhile_sublist _).length_le
    simp only [List.length_cons]; omega

/-- Coulomb.cpp:418-438: `symmIndex`; entry `n` has the number of classes of `n` points and their points.
`symmEquiv.rbegin()` of an empty map is undefined. The assertions (444-445) always hold and are left out. -/
def symmIndex (classes : List (List Nat)) : Res (List (Nat × List Nat)) :=
  if classes = [] then .error .ub
  else .ok ((List.range ((classes.map List.length).foldr max 0 + 1)).map fun n =>
    if n ≤ 1 then (0, []) else
      let pts := (classes.filter fun c => c.length = n).flatten
      (pts.length / n, pts))

/-- BlasExtra_internal.h:69-74 `eblas_symmetrize_calc`, with the bounds of both arrays. -/
def symCalc (nE n : Nat) (idx : List Nat) (i : Nat) (x : Fld) : Res Fld :=
  match (List.range n).mapM fun j => idx[n * i + j]? with
  | none => .error .ub
  | some cls =>
    if cls.all fun p => p < nE then
      let xSum := (cls.map x).sum * (1 / (n : ℂ))
      .ok (cls.foldl (fun x p => Function.update x p xSum) x)
    else .error .ub

/-- BlasExtra.cpp:137-145 `eblas_symmetrize` (all threads together). -/
def eblasSymmetrize (nE N n : Nat) (idx : List Nat) (x : Fld) : Res Fld :=
  (List.range N).foldlM (fun x i => symCalc nE n idx i x) x

/-- Coulomb.cpp:151-155 `boundarySymmetrize`. -/
def boundarySymmetrize (nE : Nat) (si : List (Nat × List Nat)) (x : Fld) : Res Fld :=
  (si.zipIdx.drop 2).foldlM (fun x e => if e.1.1 ≠ 0 then eblasSymmetrize nE e.1.1 e.2 e.1.2 x else pure x) x

/-- BlasExtra.cpp `eblas_scatter_daxpy(nr, 1., index, x, out)` into a zeroed array. -/
def scatter (nE : Nat) (idx : List Int) (x : Fld) : Res Fld :=
  if idx.all fun p => 0 ≤ p ∧ p < nE then
    .ok (idx.zipIdx.foldl (fun o e => Function.update o e.1.toNat (o e.1.toNat + 1 * x e.2)) fun _ => 0)
  else .error .ub

/-- BlasExtra.cpp `eblas_gather_daxpy(nr, 1., index, y, out)` into a zeroed array. -/
def gather (nE : Nat) (idx : List Int) (y : Fld) : Res Fld :=
  if idx.all fun p => 0 ≤ p ∧ p < nE then
    .ok (fun i => match idx[i]? with | some p => 0 + 1 * y p.toNat | none => 0)
  else .error .ub

/-- Coulomb.h: what the constructor prepares (Coulomb.cpp:388-438). -/
structure Maps where
  nO : Nat
  nE : Nat
  idx : List Int
  si : List (Nat × List Nat)

/-- Coulomb.cpp:388-438. `arrive` is the order in which the threads enter their boundary points. -/
def construct (big tol : ℝ) (R : Mat ℝ) (faces : List Face) (fuel : Nat) (isTruncated : Fin 3 → Bool) (S : Size)
    (arrive : List (Int × Nat) → List (Int × Nat)) : Res Maps := do
  let SE := sEmbed isTruncated S
  let idx ← embedIndex tol faces fuel S SE
  let pairs ← boundaryPairs big tol R faces fuel S SE
  let si ← symmIndex (runs (multimap (arrive pairs)))
  pure ⟨nr S, nr SE, idx, si⟩

/-- Real-space part of `embedExpand` (Coulomb.cpp:160-162, 169-171). -/
def expandR (m : Maps) (x : Fld) : Res Fld := do
  let out ← scatter m.nE m.idx x
  boundarySymmetrize m.nE m.si out

/-- Real-space part of `embedShrink` (Coulomb.cpp:178-181, 188-191). -/
def shrinkR (m : Maps) (y : Fld) : Res Fld := do
  let y ← boundarySymmetrize m.nE m.si y
  gather m.nE m.idx y

/-- Operators.cpp `I`: to real space on a mesh of `n` points. -/
def opI (n : Nat) (E : Nat → Nat → ℂ) (x : Fld) : Fld := fun r => ∑ g ∈ Finset.range n, E r g * x g

/-- Operators.cpp `J`: to reciprocal space. -/
def opJ (n : Nat) (E : Nat → Nat → ℂ) (x : Fld) : Fld := fun g => (1 / (n : ℂ)) * ∑ r ∈ Finset.range n, star (E r g) * x r

/-- `cis` of core/scalar.h. -/
def cis (x : ℝ) : ℂ := ⟨Real.cos x, Real.sin x⟩

/-- Coulomb.cpp:409 with Operators.cpp:929-935; `ang i` is `dot(iG, G*rCenter)` of the mesh vector with index `i`. -/
def centerToO (ang : Nat → ℝ) : Fld := fun i => cis (-(-ang i))

/-- Coulomb.cpp:410. -/
def centerFromO (ang : Nat → ℝ) : Fld := fun i => cis (-(ang i))

/-- Coulomb.cpp:157-173 `embedExpand`; `E`, `F` are the phases of the embedding and of the original mesh. -/
def embedExpand (m : Maps) (E F : Nat → Nat → ℂ) (ang : Nat → ℝ) (x : Fld) : Res Fld := do
  let out ← expandR m (opI m.nO F fun i => centerToO ang i * x i)
  pure (opJ m.nE E out)

/-- Coulomb.cpp:175-193 `embedShrink`. -/
def embedShrink (m : Maps) (E F : Nat → Nat → ℂ) (ang : Nat → ℝ) (y : Fld) : Res Fld := do
  let out ← shrinkR m (opI m.nE E y)
  pure fun i => centerFromO ang i * opJ m.nO F out i

/-- Coulomb.h `PointChargeMode`. -/
inductive Mode | none | left | right

/-- Coulomb.cpp:195-205 with `params.embed`: `kernel` is the truncated Coulomb kernel, `ion` the values of `ionKernel`, `gau` those of
the Gaussian (Operators.cpp:938). -/
def coulomb (m : Maps) (E F : Nat → Nat → ℂ) (ang : Nat → ℝ) (kernel ion gau : Nat → ℝ) (mode : Mode) (x : Fld) : Res Fld := do
  let outSR : Fld := match mode with | .none => fun _ => 0 | _ => fun i => (ion i : ℂ) * x i
  let x' : Fld := match mode with | .right => fun i => (gau i : ℂ) * x i | _ => x
  let y ← embedExpand m E F ang x'
  let lr ← embedShrink m E F ang (fun p => (kernel p : ℂ) * y p)
  let lr' : Fld := match mode with | .left => fun i => (gau i : ℂ) * lr i | _ => lr
  pure fun i => lr' i + outSR i

end
end Jdftx.Embed
