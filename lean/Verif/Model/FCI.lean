import Verif.Model.TaskDivision
import Verif.Model.PeriodicLookup

/-! # Model of the dump of matrix elements for configuration interaction

jdftx/electronic/DumpExcitationsMoments.cpp:183-401 `dumpFCI`. Wavefunctions on the grid, the Fourier transform, the Coulomb operator and the Bloch phase are given functions. `size_t` does not overflow. The header,
the format of numbers and the exchange of messages are left out: the head process writes the text of all processes in order of rank.
-/
namespace Jdftx.FCI
open Jdftx.M3
open scoped ComplexConjugate
noncomputable section

/-- DumpExcitationsMoments.cpp:186: the loop that finds the first index. -/
def triRoot (i12 i1 : ℕ) : ℕ := if (i1 + 1) * (i1 + 2) ≤ 2 * i12 then triRoot i12 (i1 + 1) else i1
termination_by 2 * i12 - i1
decreasing_by
  rename_i h
  have : i1 + 1 ≤ (i1 + 1) * (i1 + 2) := Nat.le_mul_of_pos_right _ (by omega)
  omega

/-- DumpExcitationsMoments.cpp:184-193 `splitDoubletIndex`. -/
def splitDoublet (i12 N : ℕ) (sym : Bool) : ℕ × ℕ :=
  if sym then
    let i1 := triRoot i12 0
    (i1, i12 - (i1 * (i1 + 1)) / 2)
  else
    let i1 := i12 / N
    (i1, i12 - i1 * N)

/-- What is used of the calculation: numbers of states and bands, spin and k-point of each state, wavefunctions `I(C.getColumn(i,s))` by state, band and spinor component, the factor of `multiplyBlochPhase`, `J`, and
`O((*e.coulombWfns)(.., dk, 0.))`; `symmThresholdSq`. -/
structure Calc (G R : Type) (nSpinor : ℕ) where
  nStates : ℕ
  nBands : ℕ
  spin : ℕ → ℤ
  k : ℕ → V3 ℝ
  psi : ℕ → ℕ → Fin nSpinor → G → ℂ
  bloch : V3 ℝ → G → ℂ
  fft : (G → ℂ) → R → ℂ
  coul : V3 ℝ → (R → ℂ) → R → ℂ
  thrSq : ℝ

/-- The four states of the outer loops. -/
structure Quad where
  q1 : ℕ
  q2 : ℕ
  q3 : ℕ
  q4 : ℕ
deriving DecidableEq

variable {G R : Type} [Fintype R] {nSp : ℕ} (c : Calc G R nSp)

/-- DumpExcitationsMoments.cpp:248, 252: difference of k-points of two states. -/
def Calc.dk (q q' : ℕ) : V3 ℝ := fun j => c.k q' j - c.k q j

/-- DumpExcitationsMoments.cpp:257-258: `N12`, `N34`. -/
def count (sym : Bool) (N : ℕ) : ℕ := if sym then (N * (N + 1)) / 2 else N * N

/-- Variables of the loop: indices, and the cached wavefunctions and pair densities. -/
structure St (G R : Type) (nSp : ℕ) where
  i1 : ℕ
  i2 : ℕ
  i3 : ℕ
  i4 : ℕ
  w1 : Fin nSp → G → ℂ
  Kn12 : R → ℂ
  w3 : Fin nSp → G → ℂ
  n34 : R → ℂ

open Classical in
/-- DumpExcitationsMoments.cpp:227-234 `UPDATE_nPair`. -/
def Calc.nPair (w : Fin nSp → G → ℂ) (q i : ℕ) (dk : V3 ℝ) : R → ℂ :=
  let nPair : G → ℂ := fun r => ∑ s, w s r * c.psi q i s r
  let nPair := if dk 0 * dk 0 + dk 1 * dk 1 + dk 2 * dk 2 > c.thrSq then fun r => nPair r * c.bloch dk r else nPair
  c.fft nPair

/-- DumpExcitationsMoments.cpp:224-226 `UPDATE_conjIpsi(1)`. -/
def Calc.upd1 (q : Quad) (t : St G R nSp) : St G R nSp := { t with w1 := fun s r => conj (c.psi q.q1 t.i1 s r) }
/-- DumpExcitationsMoments.cpp:224-226 `UPDATE_conjIpsi(3)`. -/
def Calc.upd3 (q : Quad) (t : St G R nSp) : St G R nSp := { t with w3 := fun s r => conj (c.psi q.q3 t.i3 s r) }
/-- DumpExcitationsMoments.cpp:235-239 `UPDATE_12`. -/
def Calc.upd12 (q : Quad) (t : St G R nSp) : St G R nSp := { t with Kn12 := c.coul (c.dk q.q1 q.q2) (c.nPair t.w1 q.q2 t.i2 0) }
/-- DumpExcitationsMoments.cpp:240-241 `UPDATE_34`. -/
def Calc.upd34 (q : Quad) (t : St G R nSp) : St G R nSp := { t with n34 := c.nPair t.w3 q.q4 t.i4 fun j => c.dk q.q3 q.q4 j - c.dk q.q1 q.q2 j }

/-- DumpExcitationsMoments.cpp:263-279: indices and caches at the first element of a process. -/
def Calc.first (q : Quad) (i1234 : ℕ) : St G R nSp :=
  let N34 := count (q.q3 == q.q4) c.nBands
  let i12 := i1234 / N34
  let i34 := i1234 - i12 * N34
  let p12 := splitDoublet i12 c.nBands (q.q1 == q.q2)
  let p34 := splitDoublet i34 c.nBands (q.q3 == q.q4)
  let t : St G R nSp := ⟨p12.1, p12.2, p34.1, p34.2, fun _ _ => 0, fun _ => 0, fun _ _ => 0, fun _ => 0⟩
  c.upd34 q (c.upd3 q (c.upd12 q (c.upd1 q t)))

/-- DumpExcitationsMoments.cpp:297-314: the next element. -/
def Calc.advance (q : Quad) (t : St G R nSp) : St G R nSp :=
  let t := { t with i4 := t.i4 + 1 }
  let t :=
    if t.i4 = (if q.q3 == q.q4 then t.i3 + 1 else c.nBands) then
      let t := { t with i4 := 0, i3 := t.i3 + 1 }
      let t :=
        if t.i3 = c.nBands then
          let t := { t with i3 := 0, i2 := t.i2 + 1 }
          let t :=
            if t.i2 = (if q.q1 == q.q2 then t.i1 + 1 else c.nBands) then
              c.upd1 q { t with i2 := 0, i1 := t.i1 + 1 }
            else t
          c.upd12 q t
        else t
      c.upd3 q t
    else t
  c.upd34 q t

/-- DumpExcitationsMoments.cpp:283-315: the loop of a process that has `n` elements left. -/
def Calc.loop (q : Quad) : ℕ → St G R nSp → List (St G R nSp)
  | 0, _ => []
  | 1, t => [t]
  | n + 2, t => t :: Calc.loop q (n + 1) (c.advance q t)

/-- DumpExcitationsMoments.cpp:285: the matrix element. -/
def element (t : St G R nSp) : ℂ := ∑ x, conj (t.Kn12 x) * t.n34 x

/-- DumpExcitationsMoments.cpp:291-294: number of an orbital in the file. -/
def Calc.orbital (q i : ℕ) : ℕ := i * c.nStates + q + 1

/-- A line: value and four numbers. -/
structure Line where
  value : ℂ
  n1 : ℕ
  n2 : ℕ
  n3 : ℕ
  n4 : ℕ

/-- DumpExcitationsMoments.cpp:202: `Kcut`. -/
def Kcut : ℝ := 1e-8

open Classical in
/-- DumpExcitationsMoments.cpp:286-290, 382-386: elements written as complex or real numbers, or not at all. -/
def printed (K : ℂ) : Option ℂ := if ‖K‖ > Kcut then (if |K.im| > Kcut then some K else some (K.re : ℂ)) else none

/-- DumpExcitationsMoments.cpp:286-295: the text for an element. -/
def Calc.line (q : Quad) (t : St G R nSp) : Option Line :=
  (printed (element t)).map fun v => ⟨v, c.orbital q.q1 t.i1, c.orbital q.q2 t.i2, c.orbital q.q3 t.i3, c.orbital q.q4 t.i4⟩

/-- DumpExcitationsMoments.cpp:259: `N1234`. -/
def Calc.total (q : Quad) : ℕ := count (q.q1 == q.q2) c.nBands * count (q.q3 == q.q4) c.nBands

/-- DumpExcitationsMoments.cpp:260-315: the elements of process `p` of `P`. -/
def Calc.process (q : Quad) (P p : ℕ) : List (St G R nSp) :=
  match TaskDiv.init (c.total q) P p with
  | some td => c.loop q (td.stopMine - td.startMine) (c.first q td.startMine)
  | none => []

open Classical in
/-- DumpExcitationsMoments.cpp:244-254: the loops over states. -/
def Calc.quads : List Quad :=
  (List.range c.nStates).flatMap fun q1 => ((List.range (q1 + 1)).filter fun q2 => decide (c.spin q1 = c.spin q2)).flatMap fun q2 =>
    (List.range c.nStates).flatMap fun q3 => ((List.range (q3 + 1)).filter fun q4 => decide (c.spin q3 = c.spin q4) &&
      decide (¬ PL.circDistanceSquared (c.dk q1 q2) (c.dk q3 q4) > c.thrSq)).map fun q4 => ⟨q1, q2, q3, q4⟩

/-- DumpExcitationsMoments.cpp:243-331: all elements with two particles, in the order of the file. -/
def Calc.elements (P : ℕ) : List (Quad × St G R nSp) := c.quads.flatMap fun q => (List.range P).flatMap fun p => (c.process q P p).map fun t => (q, t)

/-- The lines with two particles. -/
def Calc.twoLines (P : ℕ) : List Line := (c.elements P).filterMap fun x => c.line x.1 x.2

/-- DumpExcitationsMoments.cpp:378-389: the lines with one particle. -/
def Calc.oneLines (H0 : ℕ → ℕ → ℕ → ℂ) : List Line :=
  (List.range c.nStates).flatMap fun q => (List.range c.nBands).flatMap fun b1 => (List.range (b1 + 1)).filterMap fun b2 =>
    (printed (H0 q b1 b2)).map fun v => ⟨v, c.orbital q b1, c.orbital q b2, 0, 0⟩

end
end Jdftx.FCI
