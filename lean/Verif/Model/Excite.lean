import Verif.Model.TaskDivision
import Verif.Model.Outcome
import Mathlib.Analysis.Complex.Norm
import Mathlib.Algebra.BigOperators.Fin

/-! # Model of the dump of excitations

jdftx/electronic/DumpExcitationsMoments.cpp:32-179 `dumpExcitations` and jdftx/electronic/ElecInfo.cpp:29-34 `findHOMO`. Eigenvalues (those of the calculation or of the quasiparticle file, lines 53-66), fillings,
wavefunctions on the grid and the position operator on the grid are given. Exact real arithmetic; `int` does not overflow. Reading the file of quasiparticle energies, the format of numbers and failure to open the
file are left out.
-/
namespace Jdftx.Excite
noncomputable section

/-- What is used of the calculation: `psi q b s` is `I(C[q].getColumn(b,s))` for the spinor component `s`. -/
structure Calc (G : Type) where
  nStates : ℕ
  nBands : ℕ
  F : ℕ → ℕ → ℝ
  eig : ℕ → ℕ → ℝ
  psi : ℕ → ℕ → ℕ → G → ℂ
  r : Fin 3 → G → ℝ
  dV : ℝ

open Classical in
/-- ElecInfo.cpp:31-32: the loop over the lowest `n` bands from the top. -/
def homoFrom (F : ℕ → ℝ) : ℕ → ℕ
  | 0 => 0
  | n + 1 => if F n > 0.5 then n else homoFrom F n

variable {G : Type} [Fintype G] (c : Calc G)

/-- ElecInfo.cpp:29-34 `findHOMO`. -/
def Calc.findHOMO (q : ℕ) : ℕ := homoFrom (c.F q) c.nBands

/-- DumpExcitationsMoments.cpp:36-45 `excitation`. -/
structure Exc where
  q : ℕ
  o : ℕ
  u : ℕ
  dE : ℝ
  dreal : ℝ
  dimag : ℝ
  dnorm : ℝ

/-- DumpExcitationsMoments.cpp:100: `xi`; `integral` is the sum over the grid times the volume of a point. -/
def Calc.xi (q o u : ℕ) (i : Fin 3) : ℂ := (c.dV : ℂ) * ∑ g, c.psi q u 0 g * (c.r i g : ℂ) * c.psi q o 0 g

/-- DumpExcitationsMoments.cpp:98-106: one excitation. -/
def Calc.exc (q o u : ℕ) : Exc :=
  ⟨q, o, u, c.eig q u - c.eig q o, ∑ i, (c.xi q o u i).re ^ 2, ∑ i, (c.xi q o u i).im ^ 2, ∑ i, ‖c.xi q o u i‖ ^ 2⟩

/-- Variables of a process (lines 47, 49-50). -/
structure Loc where
  maxHOMO : ℝ
  maxHOMOq : ℕ
  maxHOMOn : ℕ
  minLUMO : ℝ
  minLUMOq : ℕ
  minLUMOn : ℕ
  excitations : List Exc

/-- DumpExcitationsMoments.cpp:48-49; `M` is `DBL_MAX`. -/
def Loc.start (M : ℝ) : Loc := ⟨-M, 0, 0, M, 0, 0, []⟩

open Classical in
/-- DumpExcitationsMoments.cpp:93, 133: a higher occupied energy. -/
def Loc.homo (l : Loc) (e : ℝ) (q n : ℕ) : Loc := if e > l.maxHOMO then { l with maxHOMO := e, maxHOMOq := q, maxHOMOn := n } else l

open Classical in
/-- DumpExcitationsMoments.cpp:94, 134: a lower empty energy. -/
def Loc.lumo (l : Loc) (e : ℝ) (q n : ℕ) : Loc := if e < l.minLUMO then { l with minLUMO := e, minLUMOq := q, minLUMOn := n } else l

/-- DumpExcitationsMoments.cpp:96-108: the excitations of a state. -/
def Calc.pairs (q : ℕ) : List Exc :=
  (List.range (c.findHOMO q + 1)).reverse.flatMap fun o => (List.range' (c.findHOMO q + 1) (c.nBands - (c.findHOMO q + 1))).map fun u => c.exc q o u

/-- DumpExcitationsMoments.cpp:92-108: a state with sufficient bands. -/
def Calc.state (l : Loc) (q : ℕ) : Loc :=
  let H := c.findHOMO q
  let l := (l.homo (c.eig q H) q H).lumo (c.eig q (H + 1)) q (H + 1)
  { l with excitations := l.excitations ++ c.pairs q }

/-- DumpExcitationsMoments.cpp:87-109: the loop over states of a process, and `insufficientBands`. -/
def Calc.scan : Loc → List ℕ → Loc × Bool
  | l, [] => (l, false)
  | l, q :: qs => if c.findHOMO q + 1 ≥ c.nBands then (l, true) else Calc.scan (c.state l q) qs

/-- DumpExcitationsMoments.cpp:86-109 in process `p` of `P`. -/
def Calc.process (M : ℝ) (P p : ℕ) : Loc × Bool :=
  match TaskDiv.init c.nStates P p with
  | some td => c.scan (Loc.start M) (List.range' td.startMine (td.stopMine - td.startMine))
  | none => (Loc.start M, false)

/-- The messages of a process: number of excitations, integers and other numbers. -/
structure Msg where
  n : ℕ
  ints : List ℕ
  dbls : List ℝ

/-- DumpExcitationsMoments.cpp:145-160: what a process sends. -/
def pack (l : Loc) : Msg :=
  ⟨l.excitations.length,
   [l.maxHOMOq, l.maxHOMOn, l.minLUMOq, l.minLUMOn] ++ l.excitations.flatMap (fun e => [e.q, e.o, e.u]),
   [l.maxHOMO, l.minLUMO] ++ l.excitations.flatMap (fun e => [e.dE, e.dreal, e.dimag, e.dnorm])⟩

/-- DumpExcitationsMoments.cpp:136-141: reading of `n` excitations with iterators; past the end the behaviour is undefined. -/
def unpackExc : ℕ → List ℕ → List ℝ → Res (List Exc)
  | 0, _, _ => .ok []
  | n + 1, q :: o :: u :: is, dE :: dr :: di :: dn :: ds => do
    let l ← unpackExc n is ds
    .ok (⟨q, o, u, dE, dr, di, dn⟩ :: l)
  | _ + 1, _, _ => .error .ub

/-- DumpExcitationsMoments.cpp:122-141: what the head process does with the messages of one process; arrays of another length than those received are undefined behaviour. -/
def receive (l : Loc) (m : Msg) : Res Loc :=
  if m.ints.length ≠ 4 + m.n * 3 ∨ m.dbls.length ≠ 2 + m.n * 4 then .error .ub
  else match m.ints, m.dbls with
    | hq :: hn :: lq :: ln :: is, h :: e :: ds => do
      let x ← unpackExc m.n is ds
      let l := (l.homo h hq hn).lumo e lq ln
      .ok { l with excitations := l.excitations ++ x }
    | _, _ => .error .ub

/-- DumpExcitationsMoments.cpp:118-143: the head process takes the messages of the others in turn. -/
def gather : Loc → List Loc → Res Loc
  | l, [] => .ok l
  | l, x :: xs => do
    let l ← receive l (pack x)
    gather l xs

/-- The file (lines 172-180). -/
structure Report where
  maxHOMO : ℝ
  minLUMO : ℝ
  opt : Exc
  indirect : ℝ
  from' : ℕ × ℕ
  to' : ℕ × ℕ
  lines : List Exc

/-- DumpExcitationsMoments.cpp:166-178; `sort` is `std::sort`. -/
def report (sort : List Exc → List Exc) (l : Loc) : Res Report :=
  match sort l.excitations with
  | [] => .error .ub
  | opt :: rest => .ok ⟨l.maxHOMO, l.minLUMO, opt, l.minLUMO - l.maxHOMO, (l.maxHOMOq, l.maxHOMOn), (l.minLUMOq, l.minLUMOn), opt :: rest⟩

/-- DumpExcitationsMoments.cpp:32-179 `dumpExcitations` on `P` processes; `none` when there are insufficient bands and nothing is written. All processes know of insufficient bands (line 113), so either none or all
others send messages. -/
def Calc.dump (M : ℝ) (sort : List Exc → List Exc) (P : ℕ) : Res (Option Report) :=
  match (List.range P).map (c.process M P) with
  | [] => .error .ub
  | p0 :: ps =>
    if (p0 :: ps).any (fun p => p.2) then .ok none
    else do
      let l ← gather p0.1 (ps.map Prod.fst)
      let r ← report sort l
      .ok (some r)

end
end Jdftx.Excite
