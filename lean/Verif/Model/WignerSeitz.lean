import Verif.Model.Mat3
import Verif.Model.Outcome
import Mathlib.Algebra.Order.Floor.Defs
import Mathlib.Analysis.Real.Sqrt

/-!
# Model of reduction to the Wigner-Seitz cell (jdftx/core/WignerSeitz.h, WignerSeitz.cpp)

Real arithmetic is exact. The polyhedron construction (vertices, edges, which planes bound the cell) is not modelled: the
faces are any list of faces built as the constructor and `addPlane` build them.
-/
namespace Jdftx.WS
open Jdftx.M3
noncomputable section
open Classical

/-- WignerSeitz.h:163-167 `struct Face` without its edges. -/
structure Face where
  img : V3 Int
  eqn : V3 ℝ

/-- WignerSeitz.cpp:34: `RTR = (~R)*R`. -/
def RTR (R : Mat ℝ) : Mat ℝ := mulMM (transpose R) R

/-- vector3.h conversion of an integer vector. -/
def castV (v : V3 Int) : V3 ℝ := fun i => (v i : ℝ)

/-- WignerSeitz.cpp:281, 339-340: the face `addPlane(a)` inserts. -/
def planeFace (R : Mat ℝ) (a : V3 Int) : Face :=
  ⟨a, fun i => (2 / metricLengthSq (RTR R) (castV a)) * mulMV (RTR R) (castV a) i⟩

/-- WignerSeitz.cpp:36: `eqns`. -/
def eqns (R : Mat ℝ) : Mat ℝ := mulMM (diag (2 / RTR R 0 0) (2 / RTR R 1 1) (2 / RTR R 2 2)) (RTR R)

/-- WignerSeitz.cpp:52-60: the initial face with normal direction `dir`, sign bit `s`. -/
def initFace (R : Mat ℝ) (dir : Fin 3) (s : Bool) : Face :=
  let sg : Int := 2 * (if s then 1 else 0) - 1
  ⟨fun i => if i = dir then sg else 0, fun i => (sg : ℝ) * row (eqns R) dir i⟩

/-- The face is one that the constructor (WignerSeitz.cpp:52-60, 85-90) can have made. -/
def Made (R : Mat ℝ) (f : Face) : Prop := (∃ dir s, f = initFace R dir s) ∨ (∃ a, a ≠ 0 ∧ f = planeFace R a)

/-- WignerSeitz.h:47: the fractional position between the two planes of a face pair. -/
def dPos (f : Face) (x : V3 ℝ) : ℝ := 0.5 * (1 + dot f.eqn x)

/-- WignerSeitz.h:47-51: loop body for one face. -/
def step (tol : ℝ) (f : Face) (x : V3 ℝ) : V3 ℝ × Bool :=
  let d := dPos f x
  if d < -tol ∨ d > 1 + tol then (fun i => x i - (Int.floor d : ℝ) * (f.img i : ℝ), true) else (x, false)

/-- WignerSeitz.h:45-52: one pass over the faces. -/
def sweep (tol : ℝ) : List Face → V3 ℝ → V3 ℝ × Bool
  | [], x => (x, false)
  | f :: fs, x =>
    let (x1, c1) := step tol f x
    let (x2, c2) := sweep tol fs x1
    (x2, c1 || c2)

/-- WignerSeitz.h:40-55 `reduce(x)`; `diverge` if not ended after `fuel` passes. -/
def reduce (tol : ℝ) (faces : List Face) : Nat → V3 ℝ → Res (V3 ℝ)
  | 0, _ => .error .diverge
  | fuel+1, x =>
    let (x', changed) := sweep tol faces x
    if changed then reduce tol faces fuel x' else .ok x'

/-- WignerSeitz.h:65-68: the same position for mesh coordinates. -/
def dPosMesh (f : Face) (invS : V3 ℝ) (iv : V3 Int) : ℝ :=
  0.5 * (1 + (((0 + f.eqn 0 * (iv 0 : ℝ) * invS 0) + f.eqn 1 * (iv 1 : ℝ) * invS 1) + f.eqn 2 * (iv 2 : ℝ) * invS 2))

/-- WignerSeitz.h:65-74: loop body for one face. -/
def stepMesh (tol : ℝ) (S : V3 Int) (invS : V3 ℝ) (f : Face) (iv : V3 Int) : V3 Int × Bool :=
  let d := dPosMesh f invS iv
  if d < -tol ∨ d > 1 + tol then (fun k => iv k - Int.floor d * f.img k * S k, true) else (iv, false)

/-- WignerSeitz.h:63-75: one pass over the faces. -/
def sweepMesh (tol : ℝ) (S : V3 Int) (invS : V3 ℝ) : List Face → V3 Int → V3 Int × Bool
  | [], iv => (iv, false)
  | f :: fs, iv =>
    let (iv1, c1) := stepMesh tol S invS f iv
    let (iv2, c2) := sweepMesh tol S invS fs iv1
    (iv2, c1 || c2)

/-- WignerSeitz.h:58-78 `reduce(iv, S, invS)` (without integer overflow). -/
def reduceMesh (tol : ℝ) (S : V3 Int) (invS : V3 ℝ) (faces : List Face) : Nat → V3 Int → Res (V3 Int)
  | 0, _ => .error .diverge
  | fuel+1, iv =>
    let (iv', changed) := sweepMesh tol S invS faces iv
    if changed then reduceMesh tol S invS faces fuel iv' else .ok iv'

/-! ### Distances (WignerSeitz.h:83-111, WignerSeitz.cpp:155-164) -/

/-- WignerSeitz.h:86, 101: faces taken into account (`iDir < 0` is `none`). -/
def considered (iDir : Option (Fin 3)) (f : Face) : Prop :=
  match iDir with
  | none => True
  | some k => f.img k = 0

/-- WignerSeitz.h:87, 102: `dDiff`. -/
def dDiff (f : Face) (x : V3 ℝ) : ℝ := 0.5 * (1 - |dot f.eqn x|)

/-- WignerSeitz.h:85-91: the loop of `boundaryDistance`; `none` is the early `return 0`; `big` is `DBL_MAX`. -/
def boundaryLoop (R : Mat ℝ) (iDir : Option (Fin 3)) (x : V3 ℝ) : List Face → ℝ → Option ℝ
  | [], m => some m
  | f :: fs, m =>
    if considered iDir f then
      if dDiff f x < 0 then none
      else
        let distSq := dDiff f x * dDiff f x * metricLengthSq (RTR R) (castV f.img)
        boundaryLoop R iDir x fs (if distSq < m then distSq else m)
    else boundaryLoop R iDir x fs m

/-- WignerSeitz.h:83-93 `boundaryDistance`. -/
def boundaryDistance (big : ℝ) (R : Mat ℝ) (faces : List Face) (x : V3 ℝ) (iDir : Option (Fin 3)) : ℝ :=
  match boundaryLoop R iDir x faces big with
  | none => 0
  | some m => Real.sqrt m

/-- WignerSeitz.cpp:157-162: the loop of `inRadius`. -/
def inRadiusLoop (R : Mat ℝ) (iDir : Option (Fin 3)) : List Face → ℝ → ℝ
  | [], m => m
  | f :: fs, m =>
    if considered iDir f then
      let rSq := metricLengthSq (RTR R) (castV f.img)
      inRadiusLoop R iDir fs (if rSq < m then rSq else m)
    else inRadiusLoop R iDir fs m

/-- WignerSeitz.cpp:156-164 `inRadius`. -/
def inRadius (big : ℝ) (R : Mat ℝ) (faces : List Face) (iDir : Option (Fin 3)) : ℝ :=
  0.5 * Real.sqrt (inRadiusLoop R iDir faces big)

end

/-! ### getNeighbours (WignerSeitz.cpp:179-188) -/

/-- WignerSeitz.cpp:182-184: the loop over directions. The `continue` statement belongs to this innermost loop, so that the
loop runs over the remaining directions and has no effect on what follows it. -/
def neighbourInner (isTruncated : Fin 3 → Bool) (img : V3 Int) : List (Fin 3) → Unit
  | [] => ()
  | k :: ks => if isTruncated k && img k != 0 then neighbourInner isTruncated img ks else neighbourInner isTruncated img ks

/-- WignerSeitz.cpp:179-188 `getNeighbours`, given the images of all faces in iteration order. -/
def getNeighbours (isTruncated : Fin 3 → Bool) (imgs : List (V3 Int)) : List (V3 Int) :=
  imgs.foldl (fun acc img => match neighbourInner isTruncated img [0, 1, 2] with | () => acc ++ [img]) []

end Jdftx.WS
