import Mathlib.Algebra.BigOperators.Group.Finset.Basic
/-!
# Model of the thread utilities (jdftx/core/Thread.h, jdftx/core/Thread.cpp)

`size_t`/`int` are `Nat`/`Int` (no overflow). Threads interleave at the granularity of single reads and
writes of shared variables; weaker memory models are not modelled.
-/
namespace Jdftx.Thr

/-- Thread.h:119 and Thread.cpp:44-46: number of threads actually used by `threadLaunch`, where `flag` is
`threadOperators` and `nProcsAvailable` the processor count. -/
def effThreads (nThreads : Int) (flag : Bool) (nProcsAvailable : Nat) : Nat :=
  if nThreads ≤ 0 then (if flag then nProcsAvailable else 1) else nThreads.toNat

/-- Thread.h:122-127: the `(i1,i2)` argument pairs with which `func` is invoked, for thread 0, 1, ... -/
def launchArgs (nThreads nJobs : Nat) : List (Nat × Nat) :=
  (List.range nThreads).map fun t =>
    (if nJobs > 0 then (t * nJobs) / nThreads else t,
     if nJobs > 0 then ((t+1) * nJobs) / nThreads else nThreads)

/-- Thread.h:143-145 `threadedLoop_sub(iMin,iMax,func)`: the indices for which `func` is called. -/
def loopSub (iMin iMax : Nat) : List Nat := List.range' iMin (iMax - iMin)

/-- Thread.h:147-149 `threadedLoop`: the indices for which `func` is called, thread after thread. -/
def threadedLoopCalls (nThreads nIter : Nat) : List Nat :=
  (launchArgs nThreads nIter).flatMap fun r => loopSub r.1 r.2

/-! ## Threaded accumulation (Thread.h:152-163) as an interleaving transition system -/

/-- Program counter and local variables of one thread running `threadedAccumulate_sub`. -/
inductive AccPC (K : Type) where
  /-- Thread.h:154: about to test `i<iMax`, with the local sum so far. -/
  | loop (i : Nat) (accum : K)
  /-- Thread.h:155: about to execute `m->lock()`. -/
  | wantLock (accum : K)
  /-- Thread.h:155: about to read `*accumTot`. -/
  | haveLock (accum : K)
  /-- Thread.h:155: `*accumTot` has been read as `old`, about to write the sum. -/
  | haveRead (accum old : K)
  /-- Thread.h:155: about to execute `m->unlock()`. -/
  | wrote
  | done
  deriving DecidableEq

/-- Shared total, mutex (holder) and thread states. -/
structure AccState (K : Type) where
  total : K
  lock : Option Nat
  th : Nat → AccPC K

/-- One atomic step of thread `t`; a thread waiting for the taken mutex, or finished, does not move.
`hi t` is the upper end of the job range of thread `t`; threads `≥ n` do not exist. -/
def accStep {K : Type} [Add K] (f : Nat → K) (n : Nat) (hi : Nat → Nat) (s : AccState K) (t : Nat) :
    AccState K :=
  if t < n then
    match s.th t with
    | .loop i accum =>
        if i < hi t then { s with th := Function.update s.th t (.loop (i+1) (accum + f i)) }
        else { s with th := Function.update s.th t (.wantLock accum) }
    | .wantLock accum =>
        match s.lock with
        | none => { s with lock := some t, th := Function.update s.th t (.haveLock accum) }
        | some _ => s
    | .haveLock accum => { s with th := Function.update s.th t (.haveRead accum s.total) }
    | .haveRead accum old =>
        { s with total := old + accum, th := Function.update s.th t .wrote }
    | .wrote => { s with lock := none, th := Function.update s.th t .done }
    | .done => s
  else s

/-- Thread.h:159-161: initial state of `threadedAccumulate` with `n` threads on `nIter` jobs. -/
def accInit {K : Type} [Zero K] (n nIter : Nat) : AccState K :=
  { total := 0, lock := none, th := fun t => .loop (((launchArgs n nIter)[t]?.getD (0,0)).1) 0 }

/-- Upper ends of the job ranges (Thread.h:124). -/
def accHi (n nIter : Nat) (t : Nat) : Nat := ((launchArgs n nIter)[t]?.getD (0,0)).2

/-- State after the threads have moved in the order given by `sched`. -/
def accRun {K : Type} [Add K] [Zero K] (f : Nat → K) (n nIter : Nat) (sched : List Nat) : AccState K :=
  sched.foldl (accStep f n (accHi n nIter)) (accInit n nIter)

/-! ## Threaded `y[tgt i] += inc i` (jdftx/core/BlasExtra.cpp:90-102 scatter/gather axpy)

Scatter: `tgt = index`, `inc i = a*conj(x[i])*w[i]`. Gather: `tgt = id`, `inc i = a*conj(x[index[i]])*w[i]`.
Each job is one read and one write of the shared array. -/

/-- Thread state: about to start job `i` (or finished if `i` is not below the range end), or having read the
old value `v` for job `i`. -/
inductive RmwPC (K : Type) where
  | rd (i : Nat)
  | wr (i : Nat) (v : K)

structure RmwState (K : Type) where
  y : Nat → K
  th : Nat → RmwPC K

/-- One atomic read or write of thread `t`. -/
def rmwStep {K : Type} [Add K] (tgt : Nat → Nat) (inc : Nat → K) (n : Nat) (hi : Nat → Nat)
    (s : RmwState K) (t : Nat) : RmwState K :=
  if t < n then
    match s.th t with
    | .rd i => if i < hi t then { s with th := Function.update s.th t (.wr i (s.y (tgt i))) } else s
    | .wr i v => { y := Function.update s.y (tgt i) (v + inc i), th := Function.update s.th t (.rd (i+1)) }
  else s

def rmwInit {K : Type} (y0 : Nat → K) (n nJobs : Nat) : RmwState K :=
  { y := y0, th := fun t => .rd (((launchArgs n nJobs)[t]?.getD (0,0)).1) }

def rmwRun {K : Type} [Add K] (tgt : Nat → Nat) (inc : Nat → K) (y0 : Nat → K) (n nJobs : Nat)
    (sched : List Nat) : RmwState K :=
  sched.foldl (rmwStep tgt inc n (accHi n nJobs)) (rmwInit y0 n nJobs)

/-- All threads have finished (`join` of Thread.h:128-131 returns). -/
def RmwState.finished {K : Type} (s : RmwState K) (n : Nat) (hi : Nat → Nat) : Prop :=
  ∀ t, t < n → ∃ i, s.th t = .rd i ∧ hi t ≤ i

/-! ## Suspension of operator threading (Thread.h:117-134, Thread.cpp:42-65) -/

/-- A program fragment made of threaded launches (whose body may launch again) and sections between
`suspendOperatorThreading()` and `resumeOperatorThreading()`. -/
inductive Call where
  /-- `threadLaunch(nThreads, func, ...)` where every thread of `func` performs the calls `body`. -/
  | launch (nThreads : Int) (body : List Call)
  /-- `suspendOperatorThreading(); body; resumeOperatorThreading();` -/
  | suspended (body : List Call)

mutual
/-- Executes a call. `flag` is the global `threadOperators`; `guarded` (ghost) tells whether execution is
between a suspend and its matching resume. Returns the new flag and the list of launches performed, each
with its `guarded` status and its number of threads. The calls made by the threads of one launch are
represented by those of one thread. -/
def exec (nProcs : Nat) : Call → (flag guarded : Bool) → Bool × List (Bool × Nat)
  | .launch k body, flag, guarded =>
    let n := effThreads k flag nProcs
    if n > 1 then
      let r := execs nProcs body false true   -- Thread.h:120 suspendOperatorThreading
      (true, (guarded, n) :: r.2)             -- Thread.h:133 resumeOperatorThreading
    else
      let r := execs nProcs body flag guarded
      (r.1, (guarded, n) :: r.2)
  | .suspended body, _, _ =>
    let r := execs nProcs body false true
    (true, r.2)
/-- Executes a list of calls one after the other. -/
def execs (nProcs : Nat) : List Call → (flag guarded : Bool) → Bool × List (Bool × Nat)
  | [], flag, _ => (flag, [])
  | c :: cs, flag, guarded =>
    let r := exec nProcs c flag guarded
    let r' := execs nProcs cs r.1 guarded
    (r'.1, r.2 ++ r'.2)
end

end Jdftx.Thr
