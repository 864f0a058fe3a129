import Verif.Model.VdwD2
import Verif.Model.Outcome

/-!
# Model of the DFT-D3 dispersion correction (jdftx/electronic/VanDerWaalsD3.cpp, VanDerWaalsD3_data.h)

Exact real arithmetic. The tables of VanDerWaalsD3_data.h and VanDerWaalsD3_data_C6.h are parameters (`Tables`); reads outside
of a table are not modelled. Matrices that the code stores as complex with zero imaginary part are real lists, a column vector
is the list of its entries. The loops over atoms are finite sums, the loop over cells runs over the list of cells visited by
`THREAD_halfGspaceLoop` (Model/Box.lean), and the collection over processes adds the contributions of all processes.
`ljOverride` is taken to be zero or positive, and products of cell counts do not overflow. Log output is not modelled.
-/
namespace Jdftx.D3
noncomputable section
open M3

/-- VanDerWaalsD3_data.h:41-90,300-, VanDerWaalsD3_data_C6.h: the parameter tables, and `Angstrom` (core/Units.h:40). -/
structure Tables where
  sqrtQ : Nat → ℝ
  k2Rcov : Nat → ℝ
  R0_Angstrom : Nat → ℝ
  angstrom : ℝ
  /-- number of reference systems -/
  nCN : Nat
  Z : Nat → Int
  CN : Nat → ℝ
  coeff : Nat → ℝ

/-- VanDerWaalsD3.h:30-39. -/
structure AtomParams where
  Z : Int
  sqrtQ : ℝ
  k2Rcov : ℝ
  CN : List ℝ
  iCN : List Nat

/-- VanDerWaalsD3.cpp:26-39 `getAtomParams`. -/
def getAtomParams (T : Tables) (Z : Int) : Res AtomParams :=
  if Z < 1 ∨ Z > 94 then .error .die
  else
    let found := (List.range T.nCN).filter fun i => Z = T.Z i
    .ok { Z := Z, sqrtQ := T.sqrtQ (Z - 1).toNat, k2Rcov := T.k2Rcov (Z - 1).toNat, CN := found.map T.CN, iCN := found }

/-- VanDerWaalsD3_data.h:38. -/
def k3 : ℝ := 4
/-- VanDerWaalsD3_data.h:36. -/
def k1 : ℝ := 16

/-- VanDerWaalsD3.cpp:48. -/
def gauss (x c : ℝ) : ℝ := Real.exp (-k3 * (x - c) ^ 2)
/-- VanDerWaalsD3.cpp:49. -/
def gaussPrime (x c : ℝ) : ℝ := (-2 * k3) * (x - c) * gauss x c
/-- VanDerWaalsD3.cpp:46-51: `Lsum` after the loop. -/
def Lsum (CN : List ℝ) (x : ℝ) : ℝ := (CN.map (gauss x)).sum
/-- VanDerWaalsD3.cpp:46-52: `LprimeSum` after the loop. -/
def LprimeSum (CN : List ℝ) (x : ℝ) : ℝ := (CN.map (gaussPrime x)).sum

/-- VanDerWaalsD3.cpp:57: the bound below which the weights are taken to have underflowed. -/
def tiny : ℝ := ((10 : ℝ) ^ 40)⁻¹

open Classical in
/-- `std::max_element`, VanDerWaalsD3.cpp:60: position of the first of the largest entries. -/
def maxElement : List ℝ → Nat
  | [] => 0
  | c :: cs => if cs ≠ [] ∧ cs.getD (maxElement cs) 0 > c then maxElement cs + 1 else 0

open Classical in
/-- VanDerWaalsD3.cpp:41-69: the matrix returned by `getL`. -/
def getL (CN : List ℝ) (x : ℝ) : List ℝ :=
  if Lsum CN x < tiny then (List.range CN.length).map fun i => if i = maxElement CN then 1 else 0
  else CN.map fun c => gauss x c * (1 / Lsum CN x)

open Classical in
/-- VanDerWaalsD3.cpp:41-69: `Lprime` after `getL`. -/
def getLprime (CN : List ℝ) (x : ℝ) : List ℝ :=
  if Lsum CN x < tiny then CN.map fun _ => 0
  else CN.map fun c => (1 / Lsum CN x) * (gaussPrime x c - (1 / Lsum CN x * LprimeSum CN x) * gauss x c)

/-- VanDerWaalsD3.cpp:82-84: index of an unordered pair. -/
def pairIndex (i j : Nat) : Nat := (max i j * (max i j + 1)) / 2 + min i j

/-- VanDerWaalsD3.cpp:73-77: the radius of a pair of elements. -/
def pairR0 (T : Tables) (a1 a2 : AtomParams) : ℝ :=
  let iZmin := (min a1.Z a2.Z - 1).toNat
  let iZmax := (max a1.Z a2.Z - 1).toNat
  T.R0_Angstrom ((iZmax * (iZmax + 1)) / 2 + iZmin) * T.angstrom

/-- VanDerWaalsD3.cpp:79-87: the data of the matrix `C6` in the order in which it is written. -/
def pairC6data (T : Tables) (a1 a2 : AtomParams) : List ℝ :=
  a1.iCN.flatMap fun i1 => a2.iCN.map fun i2 => T.coeff (pairIndex i1 i2)

/-- core/matrix.h:62: element `(i, j)` of a matrix with `nr` rows stored in `data`. -/
def element (nr : Nat) (data : List ℝ) (i j : Nat) : ℝ := data.getD (nr * j + i) 0

/-- VanDerWaalsD3.cpp:204,252-253: `trace(transpose(v1) * C6 * v2).real()` for column vectors `v1`, `v2` and a matrix of as
many rows as `v1` has. -/
def sandwich (v1 data v2 : List ℝ) : ℝ :=
  ∑ i ∈ Finset.range v1.length, ∑ j ∈ Finset.range v2.length, v1.getD i 0 * element v1.length data i j * v2.getD j 0

/-- VanDerWaalsD3.cpp:149-162: the value returned by `vdWpotential<n,alpha_n>`. -/
def vdWpotential (n alpha : Nat) (invr R0 : ℝ) : ℝ :=
  let pot := invr ^ n
  let damp_term := 6 * (R0 * invr) ^ alpha
  let damp := 1 / (1 + damp_term)
  pot * damp

/-- VanDerWaalsD3.cpp:149-162: `E_r` after `vdWpotential<n,alpha_n>`. -/
def vdWpotential_r (n alpha : Nat) (invr R0 : ℝ) : ℝ :=
  let pot := invr ^ n
  let pot_r := (-(n : ℝ)) * pot * invr
  let damp_term := 6 * (R0 * invr) ^ alpha
  let damp_term_r := (-(alpha : ℝ)) * damp_term * invr
  let damp := 1 / (1 + damp_term)
  let damp_r := -damp_term_r * damp * damp
  pot_r * damp + pot * damp_r

/-- VanDerWaalsD3.cpp:165-173: the value returned by `vdWpotentialBJ<n>`. -/
def vdWpotentialBJ (n : Nat) (r R0 a1 a2 : ℝ) : ℝ := 1 / (r ^ n + (a1 * R0 + a2) ^ n)

/-- VanDerWaalsD3.cpp:165-173: `E_r` after `vdWpotentialBJ<n>`. -/
def vdWpotentialBJ_r (n : Nat) (r R0 a1 a2 : ℝ) : ℝ :=
  let E := 1 / (r ^ n + (a1 * R0 + a2) ^ n);
  -(n : ℝ) * r ^ (n - 1) * E * E

/-- What the object and its `Everything` hold: VanDerWaalsD3.h:52-73, constructor VanDerWaalsD3.cpp:94-139. -/
structure Params (n : Nat) where
  R : Mat ℝ
  /-- `e.iInfo.ljOverride` -/
  lj : ℝ
  /-- `e.coulombParams.isTruncated()` -/
  trunc : Fin 3 → Bool
  T : Tables
  dampBJ : Bool
  s6 : ℝ
  sr6 : ℝ
  s8 : ℝ
  sr8 : ℝ
  /-- `atomParams[atoms[c].sp]` -/
  atom : Fin n → AtomParams

variable {n : Nat}

open Classical in
/-- VanDerWaalsD3.cpp:179. -/
def rCut (p : Params n) : ℝ := if p.lj ≠ 0 then p.lj else 200
/-- VanDerWaalsD3.cpp:277,309. -/
def rCutCN : ℝ := 50

/-- VanDerWaalsD3.cpp:361-362: one component of `S`. -/
def size1 (p : Params n) (rc : ℝ) (k : Fin 3) : Nat :=
  1 + 2 * (if p.trunc k then 0 else ⌈rc / Basis.length (column p.R k)⌉₊)
/-- VanDerWaalsD3.cpp:359-363: `S` of `setNeighborSampling`. -/
def S (p : Params n) (rc : ℝ) : Box.Size := ⟨size1 p rc 0, size1 p rc 1, size1 p rc 2⟩
/-- VanDerWaalsD3.cpp:363-364: the ranges of all processes. -/
def ranges (P : Nat) (p : Params n) (rc : ℝ) : Option (List TaskDiv.TaskDivision) :=
  (List.range P).mapM (TaskDiv.init (Box.nG (S p rc)) P)

/-- VanDerWaalsD3.cpp:215,290,325. -/
def rSq (p : Params n) (x : V3 ℝ) : ℝ := metricLengthSq (WS.RTR p.R) x

/-- VanDerWaalsD3.cpp:283,317. -/
def k2RcovSum (p : Params n) (c1 c2 : Fin n) : ℝ := (p.atom c1).k2Rcov + (p.atom c2).k2Rcov

open Classical in
/-- VanDerWaalsD3.cpp:288-294: `CNterm` of one turn of the loop, zero when the turn is skipped. -/
def turnCN (p : Params n) (pos : Fin n → V3 ℝ) (c1 c2 : Fin n) (iR : Fin 3 → Int) : ℝ :=
  let x := Ewald.sep iR (pos c1) (pos c2)
  if rSq p x ≠ 0 ∧ rSq p x ≤ rCutCN * rCutCN then
    D2.cellWeight iR / (1 + Real.exp (-k1 * (k2RcovSum p c1 c2 / Real.sqrt (rSq p x) - 1)))
  else 0

/-- VanDerWaalsD3.cpp:276-299 `computeCN` on `P` processes. -/
def computeCN (P : Nat) (p : Params n) (pos : Fin n → V3 ℝ) : Option (Fin n → ℝ) := do
  let tds ← ranges P p rCutCN
  return fun c => (tds.map fun td => ∑ c1, ∑ c2, ((Box.hLoop (S p rCutCN) td.startMine td.stopMine).map fun q =>
    (if c1 = c then turnCN p pos c1 c2 (D2.cell q.2) else 0) + (if c2 = c then turnCN p pos c1 c2 (D2.cell q.2) else 0)).sum).sum

/-- VanDerWaalsD3.cpp:203. -/
def ratio8by6 (p : Params n) (c1 c2 : Fin n) : ℝ := 3 * (p.atom c1).sqrtQ * (p.atom c2).sqrtQ

/-- VanDerWaalsD3.cpp:204. -/
def C6pair (p : Params n) (CN : Fin n → ℝ) (c1 c2 : Fin n) : ℝ :=
  sandwich (getL (p.atom c1).CN (CN c1)) (pairC6data p.T (p.atom c1) (p.atom c2)) (getL (p.atom c2).CN (CN c2))
/-- VanDerWaalsD3.cpp:205. -/
def C8pair (p : Params n) (CN : Fin n → ℝ) (c1 c2 : Fin n) : ℝ := C6pair p CN c1 c2 * ratio8by6 p c1 c2
/-- VanDerWaalsD3.cpp:206. -/
def R0pair (p : Params n) (CN : Fin n → ℝ) (c1 c2 : Fin n) : ℝ :=
  if p.dampBJ then Real.sqrt (C8pair p CN c1 c2 / C6pair p CN c1 c2) else pairR0 p.T (p.atom c1) (p.atom c2)

/-- VanDerWaalsD3.cpp:220-229: `term6`. -/
def term6 (p : Params n) (R0 r : ℝ) : ℝ :=
  if p.dampBJ then vdWpotentialBJ 6 r R0 p.sr6 p.sr8 else vdWpotential 6 14 (1 / r) (p.sr6 * R0)
/-- VanDerWaalsD3.cpp:220-229: `term6_r`. -/
def term6_r (p : Params n) (R0 r : ℝ) : ℝ :=
  if p.dampBJ then vdWpotentialBJ_r 6 r R0 p.sr6 p.sr8 else vdWpotential_r 6 14 (1 / r) (p.sr6 * R0)
/-- VanDerWaalsD3.cpp:220-229: `term8`. -/
def term8 (p : Params n) (R0 r : ℝ) : ℝ :=
  if p.dampBJ then vdWpotentialBJ 8 r R0 p.sr6 p.sr8 else vdWpotential 8 16 (1 / r) (p.sr8 * R0)
/-- VanDerWaalsD3.cpp:220-229: `term8_r`. -/
def term8_r (p : Params n) (R0 r : ℝ) : ℝ :=
  if p.dampBJ then vdWpotentialBJ_r 8 r R0 p.sr6 p.sr8 else vdWpotential_r 8 16 (1 / r) (p.sr8 * R0)

open Classical in
/-- VanDerWaalsD3.cpp:216: the turn is not skipped. -/
def within (p : Params n) (x : V3 ℝ) : Prop := rSq p x ≠ 0 ∧ rSq p x ≤ rCut p * rCut p

open Classical in
/-- VanDerWaalsD3.cpp:213-230: what one turn subtracts from `E12_C6`. -/
def turn6 (p : Params n) (pos : Fin n → V3 ℝ) (CN : Fin n → ℝ) (c1 c2 : Fin n) (iR : Fin 3 → Int) : ℝ :=
  let x := Ewald.sep iR (pos c1) (pos c2)
  if within p x then D2.cellWeight iR * p.s6 * term6 p (R0pair p CN c1 c2) (Real.sqrt (rSq p x)) else 0
open Classical in
/-- VanDerWaalsD3.cpp:213-231: what one turn subtracts from `E12_C8`. -/
def turn8 (p : Params n) (pos : Fin n → V3 ℝ) (CN : Fin n → ℝ) (c1 c2 : Fin n) (iR : Fin 3 → Int) : ℝ :=
  let x := Ewald.sep iR (pos c1) (pos c2)
  if within p x then D2.cellWeight iR * p.s8 * term8 p (R0pair p CN c1 c2) (Real.sqrt (rSq p x)) else 0
open Classical in
/-- VanDerWaalsD3.cpp:233: `E_r_by_r`, zero when the turn is skipped. -/
def turnG (p : Params n) (pos : Fin n → V3 ℝ) (CN : Fin n → ℝ) (c1 c2 : Fin n) (iR : Fin 3 → Int) : ℝ :=
  let x := Ewald.sep iR (pos c1) (pos c2)
  if within p x then
    let r := Real.sqrt (rSq p x)
    (-(1 / r) * D2.cellWeight iR) * (C6pair p CN c1 c2 * p.s6 * term6_r p (R0pair p CN c1 c2) r
      + C8pair p CN c1 c2 * p.s8 * term8_r p (R0pair p CN c1 c2) r)
  else 0

open Classical in
/-- VanDerWaalsD3.cpp:326-333: `E_r_by_r` of `propagateCNgradient`, zero when the turn is skipped. -/
def turnNG (p : Params n) (pos : Fin n → V3 ℝ) (E_CN : Fin n → ℝ) (c1 c2 : Fin n) (iR : Fin 3 → Int) : ℝ :=
  let x := Ewald.sep iR (pos c1) (pos c2)
  if rSq p x ≠ 0 ∧ rSq p x ≤ rCutCN * rCutCN then
    let invr := 1 / Real.sqrt (rSq p x)
    let expTerm := Real.exp (-k1 * (k2RcovSum p c1 c2 * invr - 1))
    let expTerm_r := expTerm * k1 * (k2RcovSum p c1 c2 * invr * invr)
    (-invr * (E_CN c1 + E_CN c2) * D2.cellWeight iR * expTerm_r) / (1 + expTerm) ^ 2
  else 0

/-- VanDerWaalsD3.cpp:235-241,335-342: the force on atom `c` that one turn adds, from its `E_r_by_r`. -/
def pushForce (p : Params n) (pos : Fin n → V3 ℝ) (g : ℝ) (c1 c2 : Fin n) (iR : Fin 3 → Int) (c : Fin n) (k : Fin 3) : ℝ :=
  let E_x := g * mulMV (WS.RTR p.R) (Ewald.sep iR (pos c1) (pos c2)) k
  (if c2 = c then E_x else 0) - (if c1 = c then E_x else 0)
/-- VanDerWaalsD3.cpp:237-240,337-340: what one turn adds to `E_RRT`. -/
def pushStress (p : Params n) (pos : Fin n → V3 ℝ) (g : ℝ) (c1 c2 : Fin n) (iR : Fin 3 → Int) (i j : Fin 3) : ℝ :=
  let rVec := mulMV p.R (Ewald.sep iR (pos c1) (pos c2))
  g * Ewald.outer rVec rVec i j

/-- What one process has before the collection. -/
structure Part (n : Nat) where
  E6 : ℝ
  E8 : ℝ
  E_CN : Fin n → ℝ
  force : Fin n → V3 ℝ
  stress : Mat ℝ

/-- VanDerWaalsD3.cpp:188-256: the loops of `energyAndGrad` on one process. -/
def mine (p : Params n) (pos : Fin n → V3 ℝ) (CN : Fin n → ℝ) (iStart iStop : Nat) : Part n :=
  let loop := Box.hLoop (S p (rCut p)) iStart iStop
  let E12_C6 := fun c1 c2 => -(loop.map fun q => turn6 p pos CN c1 c2 (D2.cell q.2)).sum
  let E12_C8 := fun c1 c2 => -(loop.map fun q => turn8 p pos CN c1 c2 (D2.cell q.2)).sum
  let E12_C6_tot := fun c1 c2 => E12_C6 c1 c2 + E12_C8 c1 c2 * ratio8by6 p c1 c2
  { E6 := ∑ c1, ∑ c2, E12_C6 c1 c2 * C6pair p CN c1 c2
    E8 := ∑ c1, ∑ c2, E12_C8 c1 c2 * C8pair p CN c1 c2
    E_CN := fun c => ∑ c1, ∑ c2,
      ((if c1 = c then E12_C6_tot c1 c2 * sandwich (getLprime (p.atom c1).CN (CN c1)) (pairC6data p.T (p.atom c1) (p.atom c2)) (getL (p.atom c2).CN (CN c2)) else 0)
        + (if c2 = c then E12_C6_tot c1 c2 * sandwich (getL (p.atom c1).CN (CN c1)) (pairC6data p.T (p.atom c1) (p.atom c2)) (getLprime (p.atom c2).CN (CN c2)) else 0))
    force := fun c k => ∑ c1, ∑ c2, (loop.map fun q => pushForce p pos (turnG p pos CN c1 c2 (D2.cell q.2)) c1 c2 (D2.cell q.2) c k).sum
    stress := fun i j => ∑ c1, ∑ c2, (loop.map fun q => pushStress p pos (turnG p pos CN c1 c2 (D2.cell q.2)) c1 c2 (D2.cell q.2) i j).sum }

/-- VanDerWaalsD3.cpp:177-272 `energyAndGrad` on `P` processes: the returned energy, the addition to the forces and the
addition to `*E_RRTptr` (when it is given). `propagateCNgradient` (VanDerWaalsD3.cpp:306-342) is called by every process with
the collected `E_CN` and adds to what the process has, before forces and stress are collected. -/
def energyAndGrad (P : Nat) (p : Params n) (pos : Fin n → V3 ℝ) : Option (Ewald.Out n) := do
  let CN ← computeCN P p pos
  let tds ← ranges P p (rCut p)
  let parts := tds.map fun td => mine p pos CN td.startMine td.stopMine
  let E_CN := fun c => (parts.map fun o => o.E_CN c).sum
  let tdsCN ← ranges P p rCutCN
  let loops := tdsCN.map fun td => Box.hLoop (S p rCutCN) td.startMine td.stopMine
  return { E := (parts.map fun o => o.E6).sum + (parts.map fun o => o.E8).sum
           force := fun c k => (parts.map fun o => o.force c k).sum + (loops.map fun loop => ∑ c1, ∑ c2, (loop.map fun q =>
             pushForce p pos (turnNG p pos E_CN c1 c2 (D2.cell q.2)) c1 c2 (D2.cell q.2) c k).sum).sum
           stress := fun i j => (parts.map fun o => o.stress i j).sum + (loops.map fun loop => ∑ c1, ∑ c2, (loop.map fun q =>
             pushStress p pos (turnNG p pos E_CN c1 c2 (D2.cell q.2)) c1 c2 (D2.cell q.2) i j).sum).sum }

end
end Jdftx.D3
