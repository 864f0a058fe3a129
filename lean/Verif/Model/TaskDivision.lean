/-!
# Model of `TaskDivision` (jdftx/core/MPIUtil.h:143-159, jdftx/core/MPIUtil.cpp:369-389)

`size_t` is `Nat` (no overflow of `nTasks*(iProc+1)` is modelled). Reading outside `stopArr` is undefined
behaviour in C++ (`std::vector::operator[]`), modelled as `none`.
-/
namespace Jdftx.TaskDiv

/-- jdftx/core/MPIUtil.h:157-158: the three data members. -/
structure TaskDivision where
  startMine : Nat
  stopMine : Nat
  stopArr : List Nat
  deriving Repr, DecidableEq

/-- jdftx/core/MPIUtil.h:151 `start(int iProc)`. -/
def startOf (stopArr : List Nat) (iProc : Nat) : Option Nat :=
  if iProc ≠ 0 then stopArr[iProc - 1]? else some 0

/-- jdftx/core/MPIUtil.h:152 `stop(int iProc)`. -/
def stopOf (stopArr : List Nat) (iProc : Nat) : Option Nat := stopArr[iProc]?

/-- jdftx/core/MPIUtil.cpp:371-375 constructor with `mpiUtil = 0` (no division). -/
def single (nTasks : Nat) : TaskDivision := ⟨0, nTasks, [nTasks]⟩

/-- jdftx/core/MPIUtil.cpp:378-380: the array of stop values. -/
def mkStopArr (nTasks nProcesses : Nat) : List Nat :=
  (List.range nProcesses).map fun iProc => (nTasks * (iProc + 1)) / nProcesses

/-- jdftx/core/MPIUtil.cpp:377-383 `init`, executed on process `iProcess` of `nProcesses`. -/
def init (nTasks nProcesses iProcess : Nat) : Option TaskDivision := do
  let stopArr := mkStopArr nTasks nProcesses
  let startMine ← startOf stopArr iProcess
  let stopMine ← stopOf stopArr iProcess
  return ⟨startMine, stopMine, stopArr⟩

/-- jdftx/core/MPIUtil.h:153 `isMine`. -/
def TaskDivision.isMine (td : TaskDivision) (task : Nat) : Bool :=
  decide (task ≥ td.startMine) && decide (task < td.stopMine)

/-- `std::upper_bound(begin, end, q) - begin` by the bisection the C++ library performs: `first` and `len`
delimit the part still to be searched; the middle element is compared with `q`. -/
def upperBoundAux (arr : List Nat) (q first len : Nat) : Nat :=
  if h : 0 < len then
    let half := len / 2
    if q < arr.getD (first + half) 0 then upperBoundAux arr q first half
    else upperBoundAux arr q (first + half + 1) (len - half - 1)
  else first
termination_by len

/-- `std::upper_bound` over the whole array. (`getD` above is only evaluated inside the array.) -/
def upperBound (arr : List Nat) (q : Nat) : Nat := upperBoundAux arr q 0 arr.length

/-- jdftx/core/MPIUtil.cpp:385-389 `whose`. -/
def TaskDivision.whose (td : TaskDivision) (q : Nat) : Nat :=
  if td.stopArr.length > 1 then upperBound td.stopArr q else 0

end Jdftx.TaskDiv
