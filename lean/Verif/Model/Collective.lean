import Verif.Model.Outcome
import Verif.Model.TaskDivision
import Verif.Model.FileIO
import Mathlib.Logic.Function.Basic
/-!
# Models of collective operations: error check and state-file I/O

A collective operation is executed by all processes in lock step; a broadcast from `root` gives every
process the root's value (MPI semantics, trusted).
-/
namespace Jdftx.Coll

/-! ## jdftx/core/MPIUtil.cpp:134-157 `MPIUtil::checkErrors` -/

/-- Overwrites `data` into `l` at position `pos` (memcpy / broadcast into `bufTotData`); the caller keeps it
inside the buffer. -/
def overwrite {α : Type} (l : List α) (pos : Nat) (data : List α) : List α :=
  l.take pos ++ data ++ l.drop (pos + data.length)

/-- Per-process state of the loop at lines 144-150: `bufTot` and `bufTotData - &bufTot[0]`. -/
structure Gather where
  bufTot : List Char
  pos : Nat
  deriving DecidableEq

/-- Iteration `j` of lines 144-150 on all processes. `msgs` are the `buf` strings of the processes. -/
def gatherStep (msgs : List (List Char)) (procs : List Gather) (j : Nat) : List Gather :=
  -- line 145: nChars_j broadcast from process j
  let n := (msgs.getD j []).length
  -- lines 146-147: process j copies its message
  let procs1 := procs.mapIdx fun i g =>
    if i = j then { g with bufTot := overwrite g.bufTot g.pos (msgs.getD j []) } else g
  -- line 148: broadcast of n characters at the write position from process j
  let data := match procs1[j]? with
    | some g => (g.bufTot.drop g.pos).take n
    | none => []
  -- lines 148-149
  procs1.map fun g => { bufTot := overwrite g.bufTot g.pos data, pos := g.pos + n }

/-- `checkErrors` executed by all processes with messages `msgs`: for each process either `none` (return) or
the text printed before exiting. -/
def checkErrors (msgs : List (List Char)) : List (Option (List Char)) :=
  -- line 138: allReduce of the lengths
  let nCharsTot := (msgs.map List.length).sum
  if nCharsTot = 0 then msgs.map fun _ => none
  else
    let init := msgs.map fun _ => ({ bufTot := List.replicate nCharsTot ' ', pos := 0 } : Gather)
    let fin := (List.range msgs.length).foldl (gatherStep msgs) init
    fin.map fun g => some (g.bufTot ++ ['\n'])

/-! ## State files: jdftx/electronic/ElecInfo.cpp:528-618 (collective MPI I/O branch) -/

variable {β : Type}

/-- File contents by byte position, and file size. -/
structure File (β : Type) where
  content : Nat → Option β
  size : Nat

/-- Freshly created file (MPIUtil.cpp:272-284 `fopenWrite` deletes an existing file first). -/
def File.empty : File β := ⟨fun _ => none, 0⟩

/-- `fwrite` of `data` at byte position `pos`. -/
def File.write (f : File β) (pos : Nat) (data : List β) : File β :=
  if data = [] then f else
  { content := fun i => if pos ≤ i ∧ i < pos + data.length then data[i - pos]? else f.content i
    size := max f.size (pos + data.length) }

/-- Product of two C++ `int`s; overflow is undefined behaviour. -/
def intMul (a b : Nat) : Res Nat := if a * b ≤ FileIO.INT_MAX then .ok (a * b) else .error .ub

/-- ElecInfo.cpp:545, 594ff: `qStart*nRows*nCols*sizeof(complex)`; the first two products are `int`
products, the last is `size_t`. -/
def seekOffset (qStart nRows nCols sizeOf : Nat) : Res Nat := do
  let a ← intMul qStart nRows
  let b ← intMul a nCols
  return b * sizeOf

/-- Writing process: file position and next state. -/
structure Writer where
  cursor : Nat
  next : Nat
  deriving DecidableEq

/-- Start of `write` on process `iProc`: range from the task division (ElecInfo.cpp: `qDivision.init`,
`qDivision.myRange`), then `fseek`. -/
def writerInit (nStates nRows nCols sizeOf nProc iProc : Nat) : Res Writer :=
  match TaskDiv.init nStates nProc iProc with
  | none => .error .ub
  | some td => do
    let off ← seekOffset td.startMine nRows nCols sizeOf
    return ⟨off, td.startMine⟩

def rangeStop (nStates nProc iProc : Nat) : Nat :=
  match TaskDiv.init nStates nProc iProc with
  | none => 0
  | some td => td.stopMine

structure WState (β : Type) where
  file : File β
  wr : Nat → Writer

/-- Process `p` writes its next state (one iteration of the loop over `q`). -/
def writeStep (M : Nat → List β) (nStates nProc : Nat) (s : WState β) (p : Nat) : WState β :=
  if p < nProc then
    if (s.wr p).next < rangeStop nStates nProc p then
      { file := s.file.write (s.wr p).cursor (M (s.wr p).next)
        wr := Function.update s.wr p
          { cursor := (s.wr p).cursor + (M (s.wr p).next).length, next := (s.wr p).next + 1 } }
    else s
  else s

/-- All processes open and seek; afterwards they write in the order given by `sched`. -/
def writeAll (M : Nat → List β) (nStates nRows nCols sizeOf nProc : Nat) (sched : List Nat) : Res (WState β) := do
  let inits ← (List.range nProc).mapM (writerInit nStates nRows nCols sizeOf nProc)
  return sched.foldl (writeStep M nStates nProc) ⟨File.empty, fun p => inits.getD p ⟨0, 0⟩⟩

/-- Bytes `[pos, pos+n)` of the file; reading a hole or beyond the end is a failed read. -/
def File.read (f : File β) (pos n : Nat) : Res (List β) :=
  match (List.range' pos n).mapM f.content with
  | some l => .ok l
  | none => .error .die

/-- ElecInfo.cpp:540-551 `read` on process `iProc`: pairs (state, data). -/
def readLoop (f : File β) (len : Nat) : (n q cursor : Nat) → Res (List (Nat × List β))
  | 0, _, _ => .ok []
  | n+1, q, cursor => do
    let d ← f.read cursor len
    let rest ← readLoop f len n (q+1) (cursor + len)
    return (q, d) :: rest

def readProc (f : File β) (nStates nRows nCols sizeOf nProc iProc : Nat) : Res (List (Nat × List β)) := do
  -- line 544: expected size in int arithmetic, checked by fopenRead (MPIUtil.cpp:255-263; 0 = no check)
  let expected ← seekOffset nStates nRows nCols sizeOf
  if expected ≠ 0 ∧ f.size ≠ expected then .error .die else
  match TaskDiv.init nStates nProc iProc with
  | none => .error .ub
  | some td => do
    let off ← seekOffset td.startMine nRows nCols sizeOf
    readLoop f (nRows * nCols * sizeOf) (td.stopMine - td.startMine) td.startMine off

end Jdftx.Coll
