import Verif.Model.Outcome
import Verif.Model.Mat3
import Mathlib.Algebra.Order.Field.Basic
import Mathlib.Data.Prod.Lex

/-!
# Model of the tetrahedron density of states (`TetrahedralDOS`, jdftx/electronic/TetrahedralDOS.cpp)

Exact arithmetic in an ordered field. All loops over weight functions (`for(int i=0; i<nWeights; i++)`) treat each weight function alone: the model
follows one of them. `std::map` and `std::set` are lists kept in order of their keys.
-/
namespace Jdftx.Tetra
open M3

variable {K : Type} [Field K] [LinearOrder K]

/-- `CsplineElem::double4` (lines 205-209): Bernstein coefficients. -/
structure Bez (K : Type) where
  b0 : K
  b1 : K
  b2 : K
  b3 : K
deriving DecidableEq, Repr

/-- `b[k] += ...` -/
def Bez.add (x y : Bez K) : Bez K := ⟨x.b0 + y.b0, x.b1 + y.b1, x.b2 + y.b2, x.b3 + y.b3⟩

/-- `zero4` (line 213). -/
def Bez.zero : Bez K := ⟨0, 0, 0, 0⟩

/-- `CsplineElem::value` (lines 217-224). -/
def Bez.value (b : Bez K) (t : K) : K :=
  let c0 := b.b0 + t * (b.b1 - b.b0)
  let c1 := b.b1 + t * (b.b2 - b.b1)
  let c2 := b.b2 + t * (b.b3 - b.b2)
  let d0 := c0 + t * (c1 - c0)
  let d1 := c1 + t * (c2 - c1)
  d0 + t * (d1 - d0)

/-- `CsplineElem::deriv` (lines 226-234). -/
def Bez.deriv (b : Bez K) (t : K) : K :=
  let c0 := 3 * (b.b1 - b.b0)
  let c1 := 3 * (b.b2 - b.b1)
  let c2 := 3 * (b.b3 - b.b2)
  let d0 := c0 + t * (c1 - c0)
  let d1 := c1 + t * (c2 - c1)
  d0 + t * (d1 - d0)

/-- `Interval` and its order (lines 199-203). -/
def ivLt (i j : K × K) : Bool := if i.1 ≠ j.1 then decide (i.1 < j.1) else decide (i.2 < j.2)

/-- `m[k] += d` in a map from intervals to coefficients, a missing entry counting as zero (`nullToZero`, lines 212-215). -/
def mapAdd (k : K × K) (d : Bez K) : List ((K × K) × Bez K) → List ((K × K) × Bez K)
  | [] => [(k, Bez.zero.add d)]
  | p :: m => if ivLt k p.1 then (k, Bez.zero.add d) :: p :: m else if ivLt p.1 k then p :: mapAdd k d m else (p.1, p.2.add d) :: m

/-- `deltas[e] += d` (lines 261-264). -/
def deltaAdd (e d : K) : List (K × K) → List (K × K)
  | [] => [(e, d)]
  | p :: m => if e < p.1 then (e, d) :: p :: m else if p.1 < e then p :: deltaAdd e d m else (p.1, p.2 + d) :: m

/-- `Cspline` (lines 237-239). -/
structure Cspline (K : Type) where
  ivs : List ((K × K) × Bez K)
  deltas : List (K × K)

/-- A corner: energy and weight. -/
abbrev Corner (K : Type) := K × K

/-- `accumTetrahedron` (lines 255-304), after the corners were sorted by energy. -/
def accumSorted (V : K) (c0 c1 c2 c3 : Corner K) (c : Cspline K) : Cspline K :=
  let e0 := c0.1; let e1 := c1.1; let e2 := c2.1; let e3 := c3.1
  let w0 := c0.2; let w1 := c1.2; let w2 := c2.2; let w3 := c3.2
  if e3 = e0 then
    { c with deltas := deltaAdd e0 (V * (1 / 4) * (w0 + w1 + w2 + w3)) c.deltas }
  else
    let inv_e30 := 1 / (e3 - e0)
    let A := inv_e30 * V
    let E13_0 := (e1 - e0) * inv_e30
    let E20_3 := (e3 - e2) * inv_e30
    let E12_0 := if e2 > e0 then (e1 - e0) / (e2 - e0) else 0
    let E21_3 := if e3 > e1 then (e3 - e2) / (e3 - e1) else 0
    let wa := w0 + (w3 - w0) * E13_0
    let wb := w0 + (w2 - w0) * E12_0
    let wc := w3 + (w0 - w3) * E20_3
    let wd := w3 + (w1 - w3) * E21_3
    let m0 := c.ivs
    let m1 := if e1 > e0 then mapAdd (e0, e1) ⟨0, 0, A * E12_0 * w0, A * E12_0 * (w1 + wb + wa)⟩ m0 else m0
    let m2 := if e2 > e1 then mapAdd (e1, e2) ⟨A * E12_0 * (w1 + wb + wa),
        A * (w1 + (1 / 3) * (2 * wa + wb + E12_0 * (2 * w2 + wc))),
        A * (w2 + (1 / 3) * (2 * wc + wd + E21_3 * (2 * w1 + wa))),
        A * E21_3 * (w2 + wc + wd)⟩ m1 else m1
    let m3 := if e3 > e2 then mapAdd (e2, e3) ⟨A * E21_3 * (w2 + wc + wd), A * E21_3 * w3, 0, 0⟩ m2 else m2
    { c with ivs := m3 }

/-- `Tetrahedron` (TetrahedralDOS.h:72-75). -/
structure Tet (K : Type) where
  q : List Nat
  V : K

/-- `accumTetrahedron` (lines 243-304). `srt` is `std::sort` by energy (line 254), whose order of equal energies is not specified. The array of corners
has four entries; other lengths cannot occur in the code. -/
def accumTetrahedron (srt : List (Corner K) → List (Corner K)) (e w : Nat → K) (t : Tet K) (c : Cspline K) : Cspline K :=
  match srt (t.q.map fun q => (e q, w q)) with
  | [c0, c1, c2, c3] => accumSorted t.V c0 c1 c2 c3 c
  | _ => c

/-- `std::set<double>::insert`. -/
def setInsert (x : K) : List K → List K
  | [] => [x]
  | y :: l => if x < y then x :: y :: l else if y < x then y :: setInsert x l else y :: l

/-- Lines 308-315: the nodes. -/
def nodes (c : Cspline K) : List K :=
  c.deltas.foldl (fun s d => setInsert d.1 s) (c.ivs.foldl (fun s i => setInsert i.1.2 (setInsert i.1.1 s)) [])

/-- Lines 325-350: splitting one piece at the nodes, `e` being the current node and the list those after it. Past the last node is undefined. -/
def splitFrom (lo hi : K) (b : Bez K) (e : K) : List K → List ((K × K) × Bez K) → Res (List ((K × K) × Bez K))
  | rest, m =>
    if e = hi then .ok m
    else match rest with
      | [] => .error .ub
      | e' :: rest =>
        let inv_de := 1 / (hi - lo)
        let t := (e - lo) * inv_de
        let t' := (e' - lo) * inv_de
        let v := b.value t
        let d := b.deriv t * inv_de
        let v' := b.value t'
        let d' := b.deriv t' * inv_de
        splitFrom lo hi b e' rest (mapAdd (e, e') ⟨v, v + (1 / 3) * (e' - e) * d, v' - (1 / 3) * (e' - e) * d', v'⟩ m)

/-- Lines 319-351. -/
def splitPiece (ns : List K) (p : (K × K) × Bez K) (m : List ((K × K) × Bez K)) : Res (List ((K × K) × Bez K)) :=
  match ns.dropWhile fun x => decide (x ≠ p.1.1) with
  | [] => .error .ub
  | e :: rest => splitFrom p.1.1 p.1.2 p.2 e rest m

/-- `deltas.find(e)`. -/
def deltaAt (ds : List (K × K)) (e : K) : Option K := (ds.find? fun d => decide (d.1 = e)).map Prod.snd

/-- Lines 358-366: the term added when there is a delta function at the node. -/
def deltaTerm (ds : List (K × K)) (e : K) : K :=
  match deltaAt ds e with
  | some d => 4 * d
  | none => 0

/-- Lines 352-376: joining neighbouring pieces. -/
def fixNodes (ds : List (K × K)) : ((K × K) × Bez K) → List ((K × K) × Bez K) → Res (List ((K × K) × Bez K))
  | cur, [] => .ok [cur]
  | cur, nxt :: rest =>
    let h := cur.1.2 - cur.1.1
    let hNext := nxt.1.2 - nxt.1.1
    if nxt.1.1 ≠ cur.1.2 then .error .die
    else
      let integral := h * cur.2.b3 + hNext * nxt.2.b0 + deltaTerm ds cur.1.2
      let wMean := integral / (h + hNext)
      do
        let r ← fixNodes ds (nxt.1, { nxt.2 with b0 := wMean }) rest
        return (cur.1, { cur.2 with b3 := wMean }) :: r

/-- Lines 379-386: delta at the bottom. -/
def deltaBottom (ds : List (K × K)) : List ((K × K) × Bez K) → List ((K × K) × Bez K)
  | [] => []
  | p :: m => match ds with
    | [] => p :: m
    | d :: _ => if d.1 = p.1.1 then (p.1, { p.2 with b0 := p.2.b0 + d.2 * (4 / (p.1.2 - p.1.1)) }) :: m else p :: m

/-- Lines 387-394: delta at the top. -/
def deltaTop (ds : List (K × K)) : List ((K × K) × Bez K) → List ((K × K) × Bez K)
  | [] => []
  | [p] => match ds.getLast? with
    | none => [p]
    | some d => if d.1 = p.1.2 then [(p.1, { p.2 with b3 := p.2.b3 + d.2 * (4 / (p.1.2 - p.1.1)) })] else [p]
  | p :: q :: m => p :: deltaTop ds (q :: m)

/-- `coalesceIntervals` (lines 307-400). -/
def coalesce (c : Cspline K) : Res (List ((K × K) × Bez K)) := do
  let combined ← c.ivs.foldlM (fun m p => splitPiece (nodes c) p m) []
  match combined with
  | [] => .error .ub -- `combined.begin()` of an empty map is dereferenced
  | p :: m =>
    let fixed ← fixNodes c.deltas p m
    return deltaTop c.deltas (deltaBottom c.deltas fixed)

/-- Lines 423-433: the three points after the first of each interval. -/
def convertOne (p : (K × K) × Bez K) : List (K × K) :=
  let e0 := p.1.1
  let e3 := p.1.2
  let b := p.2
  [((1 / 3) * (2 * e0 + e3), (13 / 60) * b.b0 + (60 / 100) * b.b1 + (15 / 100) * b.b2 + (1 / 30) * b.b3),
   ((1 / 3) * (e0 + 2 * e3), (13 / 60) * b.b3 + (60 / 100) * b.b2 + (15 / 100) * b.b1 + (1 / 30) * b.b0),
   (e3, b.b3)]

/-- `convertLspline` (lines 406-437). With no interval one element, never assigned, would be returned; `coalesce` never leaves that. -/
def convertLspline : List ((K × K) × Bez K) → List (K × K)
  | [] => [(0, 0)]
  | p :: m => (p.1.1, p.2.b0) :: (p :: m).flatMap convertOne

/-- One band of `getDOS` (lines 517-532). -/
def bandSpline (Etol : K) (c : Cspline K) : Res (List (K × K)) :=
  match c.ivs, c.deltas with
  | [], [d] => .ok [(d.1 - (1 / 2) * Etol, 0), (d.1, d.2 * (2 / Etol)), (d.1 + (1 / 2) * Etol, 0)]
  | _, _ => do
    let m ← coalesce c
    return convertLspline m

/-- Lines 459-461, 468-470: neighbours of `e` in the ordered set; moving before the beginning or past the end is undefined. -/
def neighbours (es : List K) (e : K) : Res (K × K) :=
  match (es.filter fun x => decide (x < e)).getLast?, (es.filter fun x => decide (e < x)).head? with
  | some a, some b => .ok (a, b)
  | _, _ => .error .ub

/-- Energies of `combined` (lines 474-481). -/
def dupNodes (boundary es : List K) : List K := es.flatMap fun e => if e ∈ boundary then [e, e] else [e]

/-- Lines 487-508: contributions of one spline at the current and following points. -/
def sweep (eStart eStop sS sT : K) : List K → K × K → K × K → List (K × K) → Res (List K)
  | [], _, _, _ => .error .ub
  | e :: cs, l, r, rest =>
    let t := (e - l.1) / (r.1 - l.1)
    let scale := if e = eStop then sT else if e = eStart then sS else 1
    let v := scale * ((1 - t) * l.2 + t * r.2)
    if e = eStop then .ok [v]
    else match cs with
      | [] => .error .ub
      | e' :: _ =>
        if r.1 < e' then match rest with
          | [] => .error .ub
          | r' :: rest' => do
            let vs ← sweep eStart eStop sS sT cs r r' rest'
            return v :: vs
        else do
          let vs ← sweep eStart eStop sS sT cs l r rest
          return v :: vs

/-- `cIter->second[i] += ...` for consecutive points from number `n` on. -/
def addFrom : Nat → List K → List K → List K
  | _, [], _ => []
  | 0, x :: xs, [] => x :: xs
  | 0, x :: xs, v :: vs => (x + v) :: addFrom 0 xs vs
  | n + 1, x :: xs, vs => x :: addFrom n xs vs

/-- Scale factors at a start or end (lines 454-473). -/
def edgeScale (lefts rights es : List K) (start : Bool) (e : K) : Res K :=
  if e ∈ lefts ∧ e ∈ rights then do
    let n ← neighbours es e
    return if start then (n.2 - e) / (n.2 - n.1) else (e - n.1) / (n.2 - n.1)
  else .ok 1

/-- Lines 483-509: adding one spline to the values. Points are found by `upper_bound` minus one. -/
def addSpline (lefts rights es cs : List K) (s : List (K × K)) (vals : List K) : Res (List K) :=
  match s, s.getLast? with
  | l :: r :: rest, some z => do
    let sS ← edgeScale lefts rights es true l.1
    let sT ← edgeScale lefts rights es false z.1
    let p := (cs.filter fun x => decide (x ≤ l.1)).length
    let vs ← sweep l.1 z.1 sS sT (cs.drop (p - 1)) l r rest
    return addFrom (p - 1) vals vs
  | _, _ => .error .ub

/-- `mergeLsplines` (lines 440-511). -/
def mergeLsplines (ss : List (List (K × K))) : Res (List (K × K)) := do
  let lefts : List K := ss.filterMap fun s => s.head?.map Prod.fst
  let rights : List K := ss.filterMap fun s => s.getLast?.map Prod.fst
  let es : List K := ss.foldl (fun acc s => s.foldl (fun acc p => setInsert p.1 acc) acc) []
  let boundary := es.filter fun e => decide (e ∈ lefts) != decide (e ∈ rights)
  let cs := dupNodes boundary es
  let vals ← ss.foldlM (fun vals s => addSpline lefts rights es cs s vals) (cs.map fun _ => 0)
  return cs.zip vals

/-- `getDOS` (lines 514-535) for one spin: `e b`, `w b` are the eigenvalues and weights of band `b`. -/
def getDOS (srt : List (Corner K) → List (Corner K)) (nBands : Nat) (e w : Nat → Nat → K) (tets : List (Tet K)) (Etol : K) : Res (List (K × K)) := do
  let ls ← (List.range nBands).mapM fun b => bandSpline Etol (tets.foldl (fun c t => accumTetrahedron srt (e b) (w b) t c) ⟨[], []⟩)
  mergeLsplines ls

/-- Lines 124-130 of `weldEigenvalues`: length of the cluster after its first member, whose energy is `ePrev`. -/
def clusterLen (Etol ePrev : K) : List (K × Nat) → Nat
  | [] => 0
  | p :: l => if p.1 ≤ ePrev + Etol then clusterLen Etol p.1 l + 1 else 0

/-- Lines 123-138: clusters from the lowest eigenvalue up. The argument bounds the number of clusters. -/
def weldFrom (Etol : K) : Nat → List (K × Nat) → List K → List K
  | 0, _, eigs => eigs
  | _ + 1, [], eigs => eigs
  | n + 1, p :: l, eigs =>
    let k := clusterLen Etol p.1 l
    let cluster := p :: l.take k
    let eMean := (cluster.map Prod.fst).sum / (cluster.length : K)
    weldFrom Etol n (l.drop k) (cluster.foldl (fun eigs c => eigs.set c.2 eMean) eigs)

/-- Insertion into a `std::multimap` (after entries with the same key). -/
def multiInsert (p : K × Nat) : List (K × Nat) → List (K × Nat)
  | [] => [p]
  | q :: l => if p.1 < q.1 then p :: q :: l else q :: multiInsert p l

/-- `weldEigenvalues` (lines 119-139). -/
def weld (Etol : K) (eigs : List K) : List K :=
  let m := eigs.zipIdx.foldl (fun m p => multiInsert p m) []
  weldFrom Etol m.length m eigs

/-- Vertices of the tetrahedra in a cell (lines 65-71). -/
def cellVerts : List (Nat × Nat × Nat × Nat) :=
  [(0, 2, 3, 7), (0, 3, 1, 7), (0, 1, 5, 7), (0, 5, 4, 7), (0, 4, 6, 7), (0, 6, 2, 7)]

/-- Lines 55-62: the eight offsets `inv(GT)*GTsup*i`, in the order of the loops; `s` are the signs and `B = inv(GT)*GTsup`. -/
def dk (B : Mat K) (s : V3 K) (j : Nat) : V3 K :=
  mulMV B (vec ((j / 4 % 2 : Nat) * s 0) ((j / 2 % 2 : Nat) * s 1) ((j % 2 : Nat) * s 2))

/-- Lines 91-94: volume before normalisation. -/
def rawVolume (GT B : Mat K) (s : V3 K) (v0 : V3 K) (c : Nat × Nat × Nat × Nat) : K :=
  let v : Nat → V3 K := fun j i => v0 i + dk B s j i
  let d : Nat → V3 K := fun j => mulMV GT fun i => v j i - v c.1 i
  box (d c.2.1) (d c.2.2.1) (d c.2.2.2)

/-- Lines 74-100: the normalised volumes. -/
def volumes (GT B : Mat K) (s : V3 K) (kmesh : List (V3 K)) (weightSum : K) : List K :=
  let raw := kmesh.flatMap fun v0 => cellVerts.map (rawVolume GT B s v0)
  raw.map fun V => V * (weightSum / raw.sum)

/-- Lines 74-96: the tetrahedra of a mesh. `nb i j` is the index of the mesh point found at vertex `j` of the cell at point `i` (lines 80-84), `red` is
`iReduced`, or the identity without one (line 89); all volumes are passed in the order of the loops. -/
def meshTets (red : Nat → Nat) (nb : Nat → Nat → Nat) (nk : Nat) (V : Nat → Nat → K) : List (Tet K) :=
  (List.range nk).flatMap fun (i : Nat) => cellVerts.zipIdx.map fun c => ⟨[red (nb i c.1.1), red (nb i c.1.2.1), red (nb i c.1.2.2.1), red (nb i c.1.2.2.2)], V i c.2⟩

end Jdftx.Tetra
