import Verif.Lemmas.MemCache
import Mathlib.Tactic.Linarith
/-!
# C09: the memory pool
-/
namespace Jdftx.MemCache
open Jdftx.Spec

theorem inv_init : Inv init :=
  ⟨List.Perm.refl _, List.Pairwise.nil, rfl, rfl, rfl, List.Pairwise.nil⟩

/-- What a fresh (not served from the cache) allocation does. -/
theorem allocFresh_cases (p : Params) (hs : SystemAllocator p.sys) {s : State} (size : Nat) (h : Inv s) :
    (∃ ptr s', allocFresh p s size = .ok (ptr, s') ∧ Inv s' ∧ s'.allocated = (ptr, size) :: s.allocated ∧
      (p.cacheSize ≠ 0 → s'.overallTot ≤ p.cacheSize ∨ s'.cache = [])) ∨
    (allocFresh p s size = .error .die ∧ ∃ k live, live.Perm s.allocated ∧ p.sys live size k = none) := by
  have key : ∃ s1, clearInAdvance p s size = .ok s1 ∧ Inv s1 ∧ s1.allocated = s.allocated ∧
      (p.cacheSize ≠ 0 → s1.overallTot + size ≤ p.cacheSize ∨ s1.cache = []) := by
    unfold clearInAdvance
    split
    · rename_i hc
      by_cases hn : s.cache = []
      · refine ⟨s, ?_, h, rfl, fun _ => Or.inr hn⟩
        rw [hn]; rfl
      · obtain ⟨s1, h1, h2, h3, h4⟩ := evictLoop_inv p size s.cache s h rfl hn
        exact ⟨s1, h1, h2, h3, fun _ => h4.symm⟩
    · rename_i hc
      refine ⟨s, rfl, h, rfl, fun h0 => Or.inl ?_⟩
      by_contra hlt
      exact hc ⟨h0, by omega⟩
  obtain ⟨s1, e1, i1, a1, c1⟩ := key
  have hbind : allocFresh p s size = (match allocRaw p s1 size with
      | (some ptr, s2) => .ok (ptr, s2)
      | (none, s2) => do
        match ← retryLoop p size s2.cache s2 with
        | (some ptr, s3) => .ok (ptr, s3)
        | (none, _) => .error .die) := by
    unfold allocFresh
    rw [e1]
    rfl
  rw [hbind]
  rcases allocRaw_inv p hs size i1 with ⟨s2, g1, g2, g3, g4, g5, g6⟩ | ⟨ptr, s2, g1, g2, g3, g4, g5⟩
  · rw [g1]
    simp only
    obtain ⟨r, s3, k1, k2, k3⟩ := retryLoop_inv p hs size s2.cache s2 g2 rfl
      ⟨s1.nAllocsRaw, s1.sysLive, by rw [g3, g4]; exact i1.live, g6⟩
    rw [k1]
    rcases k3 with ⟨rfl, _, _, k5⟩ | ⟨ptr, rfl, k4, k5⟩
    · right
      rw [g3, a1] at k5
      exact ⟨rfl, k5⟩
    · left
      refine ⟨ptr, s3, rfl, k2, by rw [k4, g3, a1], fun h0 => k5 ?_⟩
      rw [g5, g4]
      exact c1 h0
  · rw [g1]
    left
    refine ⟨ptr, s2, rfl, g2, by rw [g3, a1], fun h0 => ?_⟩
    rcases c1 h0 with c | c
    · left; rw [g5]; exact c
    · right; rw [g4]; exact c

theorem alloc_cases (p : Params) (hs : SystemAllocator p.sys) {s : State} (size : Nat) (h : Inv s) :
    (∃ ptr sz s', alloc p s size = .ok (ptr, s') ∧ Inv s' ∧ s'.allocated = (ptr, sz) :: s.allocated ∧
      size ≤ sz ∧ (sz = size ∨ (sz : ℚ) < size + size * p.cacheMargin) ∧
      ((s'.sysLive = s.sysLive ∧ s'.overallTot = s.overallTot) ∨
        (p.cacheSize ≠ 0 → s'.overallTot ≤ p.cacheSize ∨ s'.cache = []))) ∨
    (alloc p s size = .error .die ∧ ∃ k live, live.Perm s.allocated ∧ p.sys live size k = none) := by
  by_cases e : alloc p s size = allocFresh p s size
  · rcases allocFresh_cases p hs size h with ⟨ptr, s', h1, h2, h3, h4⟩ | h1
    · exact Or.inl ⟨ptr, size, s', e.trans h1, h2, h3, le_refl _, Or.inl rfl, Or.inr h4⟩
    · exact Or.inr ⟨e.trans h1.1, h1.2⟩
  rcases hl : lowerBound size s.cache with _ | ⟨pre, ⟨sz, ptr⟩, post⟩
  · exact absurd (by unfold alloc; rw [hl]) e
  · by_cases hm : (sz : ℚ) < size + size * p.cacheMargin
    · left
      obtain ⟨hc, hge, _⟩ := lowerBound_some hl
      simp only at hge
      have hdj := disj_both h
      have hany : s.allocated.any (·.1 == ptr) = false := by
        rw [List.any_eq_false]
        intro b hb
        rw [List.pairwise_append] at hdj
        have := (hdj.2.2 b hb (ptr, sz) (by rw [hc]; simp [blk])).1
        simpa using this
      have hperm : (s.cache.map blk).Perm ((ptr, sz) :: (pre ++ post).map blk) := by
        rw [hc]; simp only [List.map_append, List.map_cons, blk]; exact List.perm_middle
      have heq : ∀ s', alloc p s size = .ok (ptr, s') ↔ _ = s' := fun s' => by
        unfold alloc; rw [hl]; simp only [hm, if_true, Except.ok.injEq, Prod.mk.injEq, true_and]
        exact Iff.rfl
      refine ⟨ptr, sz, _, (heq _).mpr rfl, ⟨?_, h.disj, ?_, ?_, h.otot, ?_⟩,
        ?_, hge, Or.inr hm, Or.inl ⟨rfl, rfl⟩⟩
      · simp only [hany]
        refine h.live.trans ((hperm.append_left _).trans ?_)
        exact List.perm_middle
      · simp only [hany, Bool.false_eq_true, if_false, totalSize_cons, h.atot]; push_cast; omega
      · have := totalSize_perm hperm
        rw [totalSize_cons] at this
        simp only
        rw [h.ctot, this]; push_cast; omega
      · refine h.sorted.sublist ?_
        rw [hc]
        exact (List.sublist_cons_self _ _).append_left pre
      · simp [hany]
    · exact absurd (by unfold alloc; rw [hl]; simp only [hm, if_false]) e

theorem step_inv (p : Params) (hs : SystemAllocator p.sys) {s s' : State} {o : Op} (h : Inv s)
    (hst : step p s o = .ok s') : Inv s' := by
  cases o with
  | alloc size =>
    rcases alloc_cases p hs size h with ⟨ptr, sz, s1, h1, h2, _⟩ | h1
    · unfold step at hst; simp only at hst; rw [h1] at hst; cases hst; exact h2
    · unfold step at hst; simp only at hst; rw [h1.1] at hst; cases hst
  | free ptr => exact (free_inv h hst).1

theorem run_inv (p : Params) (hs : SystemAllocator p.sys) {ops : List Op} {s : State}
    (h : run p ops = .ok s) : Inv s := by
  have gen : ∀ (ops : List Op) (s0 : State), Inv s0 → ops.foldlM (step p) s0 = .ok s → Inv s := by
    intro ops
    induction ops with
    | nil => intro s0 h0 h; cases h; exact h0
    | cons o os ih =>
      intro s0 h0 h
      rw [List.foldlM_cons] at h
      rcases hst : step p s0 o with e | s1
      · rw [hst] at h; cases h
      · rw [hst] at h; exact ih s1 (step_inv p hs h0 hst) h
  exact gen ops init inv_init h

/-- **C09** (allocation). After any history of requests, a request for `size` bytes either
* returns a block of at least `size` bytes, at most the margin larger, sharing no byte with any block in use,
  and the blocks in use afterwards are exactly the previous ones and this one; or
* aborts, and then the system allocator itself refused this request while it held nothing except the
  blocks in use (i.e. after everything cached had been given back). -/
theorem C09_alloc (p : Params) (hs : SystemAllocator p.sys) (ops : List Op) (s : State)
    (h : run p ops = .ok s) (size : Nat) :
    (∃ ptr sz s', alloc p s size = .ok (ptr, s') ∧ size ≤ sz ∧
      (sz = size ∨ (sz : ℚ) < size + size * p.cacheMargin) ∧
      (∀ b ∈ s.allocated, BlocksDisjoint (ptr, sz) b) ∧ s'.allocated.Perm ((ptr, sz) :: s.allocated)) ∨
    (alloc p s size = .error .die ∧ ∃ k live, live.Perm s.allocated ∧ p.sys live size k = none) := by
  have hi := run_inv p hs h
  rcases alloc_cases p hs size hi with ⟨ptr, sz, s', h1, h2, h3, h4, h5, _⟩ | h1
  · left
    refine ⟨ptr, sz, s', h1, h4, h5, ?_, by rw [h3]⟩
    have := disj_both h2
    rw [h3, List.cons_append, List.pairwise_cons] at this
    intro b hb
    exact this.1 b (List.mem_append_left _ hb)
  · exact Or.inr h1

/-- **C09** (release). After any history, releasing `ptr` succeeds iff `ptr` is the address of a block in use,
removes exactly that block, and nothing is returned to the system; any other pointer aborts. -/
theorem C09_free (p : Params) (hs : SystemAllocator p.sys) (ops : List Op) (s : State)
    (h : run p ops = .ok s) (ptr : Nat) :
    (∃ size s', (ptr, size) ∈ s.allocated ∧ free s ptr = .ok s' ∧
      s.allocated.Perm ((ptr, size) :: s'.allocated) ∧ s'.sysLive = s.sysLive) ∨
    ((∀ size, (ptr, size) ∉ s.allocated) ∧ free s ptr = .error .die) := by
  have hi := run_inv p hs h
  rcases hf : free s ptr with e | s'
  · right
    unfold free at hf
    split at hf
    · rename_i hn
      cases hf
      refine ⟨fun size hm => ?_, rfl⟩
      rw [List.find?_eq_none] at hn
      exact hn _ hm (by simp)
    · cases hf
  · left
    obtain ⟨_, size, h1, h2⟩ := free_inv hi hf
    refine ⟨size, s', h1, rfl, h2, ?_⟩
    unfold free at hf
    split at hf
    · cases hf
    · cases hf; rfl

/-- **C09** (accounting). After any history: every block obtained from the system is either in use or cached
(nothing lost, nothing twice), all are disjoint, and the three totals are the true sizes. -/
theorem C09_accounting (p : Params) (hs : SystemAllocator p.sys) (ops : List Op) (s : State)
    (h : run p ops = .ok s) :
    s.sysLive.Perm (s.allocated ++ s.cache.map (fun e => (e.2, e.1))) ∧
    s.sysLive.Pairwise BlocksDisjoint ∧
    s.allocatedTot = totalSize s.allocated ∧
    s.cacheTot = totalSize (s.cache.map (fun e => (e.2, e.1))) ∧
    s.overallTot = totalSize s.sysLive := by
  have hi := run_inv p hs h
  exact ⟨hi.live, hi.disj, hi.atot, hi.ctot, hi.otot⟩

/-- **C09** (target size). With a target size set, an allocation after any history either obtains nothing new
from the system, or leaves the total within the target, or leaves an empty cache. -/
theorem C09_target (p : Params) (hs : SystemAllocator p.sys) (hc : p.cacheSize ≠ 0) (ops : List Op) (s : State)
    (h : run p ops = .ok s) (size ptr : Nat) (s' : State) (ha : alloc p s size = .ok (ptr, s')) :
    s'.sysLive = s.sysLive ∨ totalSize s'.sysLive ≤ p.cacheSize ∨ s'.cache = [] := by
  have hi := run_inv p hs h
  rcases alloc_cases p hs size hi with ⟨ptr', sz, s1, h1, h2, h3, h4, h5, h6⟩ | h1
  · rw [h1] at ha
    cases ha
    rcases h6 with h6 | h6
    · exact Or.inl h6.1
    · rcases h6 hc with h6 | h6
      · right; left; have := h2.otot; omega
      · exact Or.inr (Or.inr h6)
  · rw [h1.1] at ha; cases ha

/-- **C09** (no misuse of the system). No history makes the pool return a block to the system it does not
hold: every history ends normally or with an abort. -/
theorem C09_no_ub (p : Params) (hs : SystemAllocator p.sys) (ops : List Op) :
    (∃ s, run p ops = .ok s) ∨ run p ops = .error .die := by
  have gen : ∀ (ops : List Op) (s0 : State), Inv s0 →
      (∃ s, ops.foldlM (step p) s0 = .ok s) ∨ ops.foldlM (step p) s0 = .error .die := by
    intro ops
    induction ops with
    | nil => intro s0 _; exact Or.inl ⟨s0, rfl⟩
    | cons o os ih =>
      intro s0 h0
      rw [List.foldlM_cons]
      rcases hst : step p s0 o with e | s1
      · right
        have : e = .die := by
          cases o with
          | alloc size =>
            rcases alloc_cases p hs size h0 with ⟨ptr, sz, s1, h1, _⟩ | h1
            · unfold step at hst; simp only at hst; rw [h1] at hst; cases hst
            · unfold step at hst; simp only at hst; rw [h1.1] at hst; cases hst; rfl
          | free ptr =>
            unfold step at hst; simp only at hst; unfold free at hst
            split at hst
            · cases hst; rfl
            · cases hst
        rw [this]; rfl
      · exact ih s1 (step_inv p hs h0 hst)
  exact gen ops init inv_init

/-- A bump allocator that refuses to hold more than `cap` bytes: `C09` applies to it. -/
def bump (cap : Nat) (live : List (Nat × Nat)) (size _k : Nat) : Option Nat :=
  if totalSize live + size ≤ cap then some ((live.map (fun b => b.1 + b.2)).foldr max 0 + 1) else none

theorem bump_ok (cap : Nat) : SystemAllocator (bump cap) := by
  intro live size k a h b hb
  unfold bump at h
  split at h
  · cases h
    have : b.1 + b.2 ≤ (live.map (fun b => b.1 + b.2)).foldr max 0 := by
      clear * - hb
      induction live with
      | nil => simp at hb
      | cons x xs ih =>
        rcases List.mem_cons.mp hb with rfl | hb
        · simp
        · simp only [List.map_cons, List.foldr_cons]; exact le_trans (ih hb) (le_max_right _ _)
    constructor
    · simp only; omega
    · right; simp only; omega
  · cases h

/-- Reuse of a cached block, eviction and out-of-memory all happen in real histories. -/
example : ((run ⟨bump 100, 64, 1/2⟩ [.alloc 40, .alloc 10, .free 1, .alloc 30]).map
    fun s => (s.allocated, s.cache)) = .ok ([(1, 40), (42, 10)], []) := by
  simp [run, step, alloc, allocFresh, clearInAdvance, allocRaw, free, init, lowerBound, cacheInsert, eraseAddr, bump, totalSize,
    Except.map, bind, Except.bind, List.foldlM, pure, Except.pure]
  norm_num
example : ((run ⟨bump 100, 64, 1/2⟩ [.alloc 40, .free 1, .alloc 60]).map
    fun s => (s.allocated, s.cache, s.overallTot)) = .ok ([(1, 60)], [], 60) := by
  simp [run, step, alloc, allocFresh, clearInAdvance, allocRaw, free, init, lowerBound, cacheInsert, eraseAddr, bump, totalSize,
    Except.map, bind, Except.bind, List.foldlM, pure, Except.pure, evictLoop, freeRaw]
example : run ⟨bump 100, 0, 1/2⟩ [.alloc 40, .alloc 70] = .error .die := by
  simp [run, step, alloc, allocFresh, clearInAdvance, allocRaw, init, lowerBound, bump, totalSize, retryLoop,
    Except.map, bind, Except.bind, List.foldlM]
example : run ⟨bump 100, 0, 1/2⟩ [.alloc 40, .free 2] = .error .die := by
  simp [run, step, alloc, allocFresh, clearInAdvance, allocRaw, init, lowerBound, bump, totalSize, free,
    Except.map, bind, Except.bind, List.foldlM]

end Jdftx.MemCache
