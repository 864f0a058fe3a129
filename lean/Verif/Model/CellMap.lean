import Verif.Model.Basis
import Mathlib.Algebra.Order.Round

/-!
# Model of the cell map of a supercell (`getCellMap`, jdftx/core/LatticeUtils.cpp:255-343)

Exact real arithmetic. The neighbours and the circumscribed radius of the Wigner-Seitz cell of the supercell are inputs (`neigh`, `circ`);
`DBL_MAX` is the parameter `big`, `symmThreshold` the parameter `tol`. The weights are set as complex numbers with zero imaginary part
and are real here. Writing the map to a file is not modelled.
-/
namespace Jdftx.CellMap
noncomputable section
open M3

/-- Inputs of `getCellMap`, with the Wigner-Seitz data of lines 259-265 and 277. -/
structure Inp where
  R : Mat ℝ
  Rsup : Mat ℝ
  trunc : Fin 3 → Bool
  x1 : List (V3 ℝ)
  x2 : List (V3 ℝ)
  rSmooth : ℝ
  neigh : List (V3 ℝ)
  circ : ℝ
  big : ℝ
  tol : ℝ

/-- Lines 273, 295: project out truncated directions. -/
def project (t : Fin 3 → Bool) (v : V3 ℝ) : V3 ℝ := fun l => if t l then 0 else v l

/-- `v.length_squared()`. -/
def lenSq (v : V3 ℝ) : ℝ := v 0 * v 0 + v 1 * v 1 + v 2 * v 2

/-- `a-b`. -/
def sub (a b : V3 ℝ) : V3 ℝ := fun i => a i - b i

/-- `iCell` as a real vector. -/
def toV (c : Box.IV) : V3 ℝ := vec (c.x : ℝ) (c.y : ℝ) (c.z : ℝ)

/-- Lines 268-276: `d12sqMax`. -/
def d12sqMax (p : Inp) : ℝ :=
  (p.x1.flatMap fun a => p.x2.map fun b => metricLengthSq (mulMM (transpose p.R) p.R) (project p.trunc (sub a b))).foldl max 0

/-- Line 277: `Rmax`. -/
def rMax (p : Inp) : ℝ := p.circ + Real.sqrt (d12sqMax p)

/-- Lines 280-283: `iCellMax`. -/
def iCellMax (p : Inp) (l : Fin 3) : Int :=
  if p.trunc l then 0 else 1 + ⌈rMax p * Basis.length (row (Basis.inv p.R) l)⌉

/-- Lines 286-288: the cells in the order of the loops (and of the map, which compares keys lexicographically). -/
def cells (p : Inp) : List Box.IV :=
  (Basis.loop (iCellMax p 0)).flatMap fun x => (Basis.loop (iCellMax p 1)).flatMap fun y =>
    (Basis.loop (iCellMax p 2)).map fun z => (⟨x, y, z⟩ : Box.IV)

/-- Lines 294-303: `t` for one pair. -/
def tOf (p : Inp) (c : Box.IV) (a b : V3 ℝ) : ℝ :=
  let dr := mulMV p.R (project p.trunc fun l => toV c l + b l - a l)
  let drSqNeigh := p.neigh.foldl (fun m rSup => min m (lenSq (sub dr rSup))) p.big
  0.5 * (lenSq dr - drSqNeigh) / p.rSmooth

open Classical in
/-- Lines 289, 304-307: the weight of one pair (`zeroes` unless set). -/
def weight (p : Inp) (c : Box.IV) (a b : V3 ℝ) : ℝ :=
  let t := tOf p c a b
  if t < 1 then (if t ≤ -1 then 1 else 0.25 * (2 - t * (3 - t * t))) else 0

/-- An entry of the map: cell and weight matrix. -/
structure Entry where
  cell : Box.IV
  w : Nat → Nat → ℝ

/-- Line 289-308: the weight matrix of a cell. -/
def matrixOf (p : Inp) (c : Box.IV) (i j : Nat) : ℝ :=
  match p.x1[i]?, p.x2[j]? with
  | some a, some b => weight p c a b
  | _, _ => 0

open Classical in
/-- Lines 284-310: `iCellMap` before normalisation. -/
def rawMap (p : Inp) : List Entry :=
  ((cells p).filter fun c => decide (∃ a ∈ p.x1, ∃ b ∈ p.x2, tOf p c a b < 1)).map fun c => ⟨c, matrixOf p c⟩

/-- vector3.h:138-143: the error of rounding a vector. -/
def roundErr (v : V3 ℝ) : ℝ := Basis.length fun i => v i - (round (v i) : ℤ)

open Classical in
/-- Lines 323-324. -/
def equivB (p : Inp) (c' c : Box.IV) : Bool :=
  decide (roundErr (mulMV (mulMM (Basis.inv p.Rsup) p.R) (toV ⟨c'.x - c.x, c'.y - c.y, c'.z - c.z⟩)) < p.tol)

/-- State of the normalisation loop. -/
structure St where
  map : List Entry
  done : List Box.IV

/-- Lines 317-329: positions in `equiv` for the iteration at position `n`. -/
def equivs (eq : Box.IV → Box.IV → Bool) (s : St) (n : Nat) (c : Box.IV) : List Nat :=
  n :: ((List.range s.map.length).filter fun m => decide (n < m) && match s.map[m]? with
    | some e => !s.done.contains e.cell && eq e.cell c
    | none => false)

/-- Lines 318, 326: `wSum`. -/
def wSum (s : St) (l : List Nat) (i j : Nat) : ℝ :=
  (l.map fun m => match s.map[m]? with | some e => e.w i j | none => 0).sum

open Classical in
/-- Lines 316-338: one iteration; `assert` of line 334 stops the program. -/
def step (eq : Box.IV → Box.IV → Bool) (tol : ℝ) (n1 n2 : Nat) (s : St) (n : Nat) : Res St :=
  match s.map[n]? with
  | none => .ok s
  | some e =>
    if s.done.contains e.cell then .ok s
    else
      let l := equivs eq s n e.cell
      if ∀ i < n1, ∀ j < n2, tol < wSum s l i j then
        .ok {
          map := s.map.mapIdx fun m e' => if m ∈ l then ⟨e'.cell, fun i j => 1 / wSum s l i j * e'.w i j⟩ else e'
          done := s.done ++ (l.tail.filterMap fun m => (s.map[m]?).map Entry.cell) }
      else .error .die

/-- Lines 313-338. -/
def normalise (eq : Box.IV → Box.IV → Bool) (tol : ℝ) (n1 n2 : Nat) (m : List Entry) : Res St :=
  (List.range m.length).foldlM (step eq tol n1 n2) ⟨m, []⟩

/-- LatticeUtils.cpp:255-343 `getCellMap`. -/
def getCellMap (p : Inp) : Res (List Entry) :=
  (normalise (equivB p) p.tol p.x1.length p.x2.length (rawMap p)).map St.map

end
end Jdftx.CellMap
