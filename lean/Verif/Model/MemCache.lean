import Verif.Model.Outcome
import Mathlib.Data.Rat.Defs
import Mathlib.Algebra.Order.Ring.Unbundled.Rat
/-!
# Model of the allocation cache (jdftx/core/ManagedMemory.cpp:160-290, class `MemCache`, `shouldCache` case)

Addresses and sizes are `Nat`; totals are `Int` so that no subtraction is silently truncated.
Public calls hold the mutex for their whole duration, so they are modelled as atomic operations. The
statistics `nAllocs, nFrees, nFreesRaw` and the debug `report` are not modelled.
-/
namespace Jdftx.MemCache

/-- Parameters: system allocator (see `Spec.SystemAllocator`), `cacheSize` (line 32, 0 = unlimited) and
`cacheMargin` (line 33). -/
structure Params where
  sys : (live : List (Nat × Nat)) → (size k : Nat) → Option Nat
  cacheSize : Nat
  cacheMargin : ℚ

/-- Data members (lines 163-168). `allocated` maps address to size, `cache` is the multimap from size to
address in increasing order of size. `sysLive` (ghost) are the blocks `(address, size)` obtained from the
system and not returned. -/
structure State where
  allocated : List (Nat × Nat)
  cache : List (Nat × Nat)
  allocatedTot : Int
  cacheTot : Int
  overallTot : Int
  nAllocsRaw : Nat
  sysLive : List (Nat × Nat)

/-- Constructor (lines 240-248). -/
def init : State := ⟨[], [], 0, 0, 0, 0, []⟩

/-- `std::multimap::insert`: after all entries with key not larger. -/
def cacheInsert (e : Nat × Nat) : List (Nat × Nat) → List (Nat × Nat)
  | [] => [e]
  | x :: xs => if e.1 < x.1 then e :: x :: xs else x :: cacheInsert e xs

/-- `cache.lower_bound(size)`: entries before it, the entry, entries after it. -/
def lowerBound (size : Nat) : List (Nat × Nat) → Option (List (Nat × Nat) × (Nat × Nat) × List (Nat × Nat))
  | [] => none
  | x :: xs =>
    if x.1 ≥ size then some ([], x, xs)
    else (lowerBound size xs).map fun r => (x :: r.1, r.2.1, r.2.2)

/-- Removes the entry with address `ptr`. -/
def eraseAddr (ptr : Nat) (l : List (Nat × Nat)) : List (Nat × Nat) := l.eraseP (·.1 == ptr)

/-- Lines 170-183 `free`: unknown pointers fail the `assert`. -/
def free (s : State) (ptr : Nat) : Res State :=
  match s.allocated.find? (·.1 == ptr) with
  | none => .error .die
  | some (_, size) => .ok
    { s with
      cache := cacheInsert (size, ptr) s.cache
      cacheTot := s.cacheTot + size
      allocated := eraseAddr ptr s.allocated
      allocatedTot := s.allocatedTot - size }

/-- Lines 259-268 `allocRaw`; `std::map::insert` does not replace an existing key. -/
def allocRaw (p : Params) (s : State) (size : Nat) : Option Nat × State :=
  match p.sys s.sysLive size s.nAllocsRaw with
  | none => (none, { s with nAllocsRaw := s.nAllocsRaw + 1 })
  | some ptr => (some ptr,
    { s with
      nAllocsRaw := s.nAllocsRaw + 1
      sysLive := (ptr, size) :: s.sysLive
      allocated := if s.allocated.any (·.1 == ptr) then s.allocated else (ptr, size) :: s.allocated
      allocatedTot := s.allocatedTot + size
      overallTot := s.overallTot + size })

/-- Lines 271-277 `freeRaw` applied to the first cache entry `e` (the loops always erase `begin()`), `rest`
being the other entries. Returning an address to the system that is not live would be undefined. -/
def freeRaw (s : State) (e : Nat × Nat) (rest : List (Nat × Nat)) : Res State :=
  if (e.2, e.1) ∈ s.sysLive then .ok
    { s with
      sysLive := s.sysLive.erase (e.2, e.1)
      cacheTot := s.cacheTot - e.1
      overallTot := s.overallTot - e.1
      cache := rest }
  else .error .ub

/-- Lines 210-213: the eviction loop; `cache` is the current content of `s.cache`. -/
def evictLoop (p : Params) (size : Nat) : List (Nat × Nat) → State → Res State
  | [], s => .ok s
  | e :: rest, s =>
    match freeRaw s e rest with
    | .error err => .error err
    | .ok s' => if s'.overallTot + size ≤ p.cacheSize then .ok s' else evictLoop p size rest s'

/-- Lines 225-233: release cached entries one at a time until the allocation succeeds. -/
def retryLoop (p : Params) (size : Nat) : List (Nat × Nat) → State → Res (Option Nat × State)
  | [], s => .ok (none, s)
  | e :: rest, s =>
    match freeRaw s e rest with
    | .error err => .error err
    | .ok s' =>
      match allocRaw p s' size with
      | (some ptr, s'') => .ok (some ptr, s'')
      | (none, s'') => retryLoop p size rest s''

/-- Lines 205-215: release cached blocks before exceeding the target size. -/
def clearInAdvance (p : Params) (s : State) (size : Nat) : Res State :=
  if p.cacheSize ≠ 0 ∧ s.overallTot + size > p.cacheSize then evictLoop p size s.cache s else .ok s

/-- Lines 205-238: the part of `alloc` reached when no cached block is suitable. -/
def allocFresh (p : Params) (s : State) (size : Nat) : Res (Nat × State) := do
  let s1 ← clearInAdvance p s size
  match allocRaw p s1 size with
  | (some ptr, s2) => .ok (ptr, s2)
  | (none, s2) =>
    match ← retryLoop p size s2.cache s2 with
    | (some ptr, s3) => .ok (ptr, s3)
    | (none, _) => .error .die  -- outOfMemory

/-- Lines 185-238 `alloc`. -/
def alloc (p : Params) (s : State) (size : Nat) : Res (Nat × State) :=
  match lowerBound size s.cache with
  | some (pre, (sizeCached, ptrCached), post) =>
    if (sizeCached : ℚ) < size + size * p.cacheMargin then .ok (ptrCached,
      { s with
        allocated := if s.allocated.any (·.1 == ptrCached) then s.allocated
          else (ptrCached, sizeCached) :: s.allocated
        allocatedTot := s.allocatedTot + sizeCached
        cache := pre ++ post
        cacheTot := s.cacheTot - sizeCached })
    else allocFresh p s size
  | none => allocFresh p s size

/-- Requests of the program. -/
inductive Op where
  | alloc (size : Nat)
  | free (ptr : Nat)

/-- One request; the returned address is part of the state's `allocated`. -/
def step (p : Params) (s : State) : Op → Res State
  | .alloc size => (alloc p s size).map (·.2)
  | .free ptr => free s ptr

/-- A history of requests from the start of the program. -/
def run (p : Params) (ops : List Op) : Res State := ops.foldlM (step p) init

end Jdftx.MemCache
