import Verif.Model.Mat3
import Verif.Model.Basis
import Verif.Model.Box
import Verif.Model.TaskDivision
import Verif.Model.Ewald

/-!
# Model of the pairwise dispersion correction (jdftx/electronic/VanDerWaalsD2.cpp)

Exact real arithmetic. The loops over atoms are finite sums, the loop over cells runs over the list of cells visited by
`THREAD_halfGspaceLoop` (modelled in Model/Box.lean), and the collection over processes adds the contributions of all
processes. `ljOverride` is taken to be zero or positive, and products of cell counts do not overflow. Atoms are numbered by
`Fin n`; `C6` and `R0` are the parameters returned by `getParams` for each atom.
-/
namespace Jdftx.D2
noncomputable section
open M3

/-- Inputs of `energyAndGrad` other than the positions. -/
structure Params (n : Nat) where
  R : Mat ℝ
  /-- `e.iInfo.ljOverride` -/
  lj : ℝ
  /-- `scaleFac` -/
  scale : ℝ
  /-- `e.coulombParams.isTruncated()` -/
  trunc : Fin 3 → Bool
  C6 : Fin n → ℝ
  R0 : Fin n → ℝ

open Classical in
/-- VanDerWaalsD2.cpp:33-68: the value returned by `vdwPairEnergyAndGrad`. -/
def pairE (lj C6 R0 r : ℝ) : ℝ :=
  if lj ≠ 0 then
    if r > lj then 0
    else
      let invr6 := (1 / r) ^ 6
      let R06 := R0 ^ 6
      (C6 * invr6) * (1 - 0.5 * R06 * invr6)
  else
    let invR0 := 1 / R0
    let rByR0 := r * invR0
    if rByR0 < 0.3000002494598603 then 0.00114064201325433 * C6 * invR0 ^ 6
    else
      let exponential := Real.exp (-20 * (rByR0 - 1))
      let fdamp := 1 / (1 + exponential)
      (C6 * (1 / r) ^ 6) * fdamp

open Classical in
/-- VanDerWaalsD2.cpp:33-68: the value stored in `E_r` by `vdwPairEnergyAndGrad`. -/
def pairEr (lj C6 R0 r : ℝ) : ℝ :=
  if lj ≠ 0 then
    if r > lj then 0
    else
      let invr := 1 / r
      let invr6 := invr ^ 6
      let R06 := R0 ^ 6
      6 * (C6 * invr6) * invr * (R06 * invr6 - 1)
  else
    let invR0 := 1 / R0
    let rByR0 := r * invR0
    if rByR0 < 0.3000002494598603 then 0
    else
      let exponential := Real.exp (-20 * (rByR0 - 1))
      let fdamp := 1 / (1 + exponential)
      let fdamp_r := (fdamp * fdamp) * exponential * (20 * invR0)
      let C6invr6 := C6 * (1 / r) ^ 6
      let C6invr6_r := (-6 / r) * C6invr6
      C6invr6_r * fdamp + C6invr6 * fdamp_r

variable {n : Nat}

open Classical in
/-- VanDerWaalsD2.cpp:173. -/
def rCut (p : Params n) : ℝ := if p.lj ≠ 0 then p.lj else 200

/-- VanDerWaalsD2.cpp:177: one component of `S`. -/
def size1 (p : Params n) (k : Fin 3) : Nat :=
  1 + 2 * (if p.trunc k then 0 else ⌈rCut p / Basis.length (column p.R k)⌉₊)

/-- VanDerWaalsD2.cpp:175-177. -/
def S (p : Params n) : Box.Size := ⟨size1 p 0, size1 p 1, size1 p 2⟩

/-- The loop variable as a `vector3<int>`. -/
def cell (v : Box.IV) : Fin 3 → Int := vec v.x v.y v.z

/-- VanDerWaalsD2.cpp:196. -/
def cellWeight (iR : Fin 3 → Int) : ℝ := if iR 2 ≠ 0 then 1 else 0.5

/-- VanDerWaalsD2.cpp:188-189. -/
def C6pair (p : Params n) (c1 c2 : Fin n) : ℝ := Real.sqrt (p.C6 c1 * p.C6 c2)
/-- VanDerWaalsD2.cpp:189. -/
def R0pair (p : Params n) (c1 c2 : Fin n) : ℝ := p.R0 c1 + p.R0 c2

/-- `e.gInfo.RTR.metric_length_squared(x)`, VanDerWaalsD2.cpp:193. -/
def rSq (p : Params n) (x : V3 ℝ) : ℝ := metricLengthSq (WS.RTR p.R) x

open Classical in
/-- VanDerWaalsD2.cpp:192-197: what one turn of the loop subtracts from `Etot`. -/
def turnE (p : Params n) (pos : Fin n → V3 ℝ) (c1 c2 : Fin n) (iR : Fin 3 → Int) : ℝ :=
  let x := Ewald.sep iR (pos c1) (pos c2)
  if rSq p x ≠ 0 then
    cellWeight iR * p.scale * pairE p.lj (C6pair p c1 c2) (R0pair p c1 c2) (Real.sqrt (rSq p x))
  else 0

open Classical in
/-- VanDerWaalsD2.cpp:198: `E_x`, zero when the turn is skipped. -/
def turnX (p : Params n) (pos : Fin n → V3 ℝ) (c1 c2 : Fin n) (iR : Fin 3 → Int) : V3 ℝ :=
  let x := Ewald.sep iR (pos c1) (pos c2)
  if rSq p x ≠ 0 then
    let r := Real.sqrt (rSq p x)
    fun k => (cellWeight iR * p.scale * pairEr p.lj (C6pair p c1 c2) (R0pair p c1 c2) r / r) * mulMV (WS.RTR p.R) x k
  else 0

open Classical in
/-- VanDerWaalsD2.cpp:202-203: what one turn subtracts from `E_RRT`. -/
def turnS (p : Params n) (pos : Fin n → V3 ℝ) (c1 c2 : Fin n) (iR : Fin 3 → Int) : Mat ℝ :=
  let x := Ewald.sep iR (pos c1) (pos c2)
  if rSq p x ≠ 0 then
    let r := Real.sqrt (rSq p x)
    let rVec := mulMV p.R x
    fun i j => (cellWeight iR * p.scale * pairEr p.lj (C6pair p c1 c2) (R0pair p c1 c2) r / r) * Ewald.outer rVec rVec i j
  else 0

/-- VanDerWaalsD2.cpp:181-208: what one process accumulates over its range of cells. -/
def mine (p : Params n) (pos : Fin n → V3 ℝ) (iStart iStop : Nat) : Ewald.Out n :=
  let loop := Box.hLoop (S p) iStart iStop
  { E := -∑ c1, ∑ c2, (loop.map fun q => turnE p pos c1 c2 (cell q.2)).sum
    force := fun c k => ∑ c1, ∑ c2, (loop.map fun q =>
      (if c1 = c then turnX p pos c1 c2 (cell q.2) k else 0) - (if c2 = c then turnX p pos c1 c2 (cell q.2) k else 0)).sum
    stress := fun i j => -∑ c1, ∑ c2, (loop.map fun q => turnS p pos c1 c2 (cell q.2) i j).sum }

/-- VanDerWaalsD2.cpp:169-220 `VanDerWaalsD2::energyAndGrad` on `P` processes: the returned energy, the addition to the
forces and the addition to `*E_RRTptr`. -/
def energyAndGrad (P : Nat) (p : Params n) (pos : Fin n → V3 ℝ) : Option (Ewald.Out n) := do
  let tds ← (List.range P).mapM (TaskDiv.init (Box.nG (S p)) P)
  let parts := tds.map fun td => mine p pos td.startMine td.stopMine
  return { E := (parts.map fun o => o.E).sum
           force := fun c k => (parts.map fun o => o.force c k).sum
           stress := fun i j => (parts.map fun o => o.stress i j).sum }

end
end Jdftx.D2
