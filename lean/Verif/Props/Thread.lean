import Verif.Lemmas.Thread
import Verif.Spec.Parallel

/-!
# C02-C05: threaded loops, accumulation, scatter/gather, suspension of threading
-/
namespace Jdftx.Thr
open Jdftx.Spec Finset

/-! ## C02 -/

/-- With at least one job the ranges handed to the threads are an exact cover of the jobs, and
`threadedLoop` calls its function exactly once for each of `0..N-1` (and for nothing else).
Partial: `N = 0` is excluded, see `C02_zero_jobs_violation`. -/
theorem C02_exact_cover_partial (n N : Nat) (hn : 0 < n) (hN : 0 < N) :
    ExactCover (launchArgs n N) N ∧ Balanced (launchArgs n N) ∧
    threadedLoopCalls n N = List.range N := by
  have hc : ExactCover (launchArgs n N) N := by
    unfold ExactCover
    rw [launchArgs_eq n N hN]
    have := TaskDiv.cover_of_mono (fun i => (i * N) / n) (by simp) (fun i => TaskDiv.div_mono N n i) n
    simp only [Nat.mul_div_cancel_left N hn] at this
    exact this
  refine ⟨hc, ?_, hc⟩
  rw [launchArgs_eq n N hN]
  intro r hr s hs
  simp only [List.mem_map, List.mem_range] at hr hs
  obtain ⟨i, _, rfl⟩ := hr
  obtain ⟨j, _, rfl⟩ := hs
  have h1 := TaskDiv.chunk_len N n i hn
  have h2 := TaskDiv.chunk_len N n j hn
  dsimp only
  omega

/-- The property fails for `N = 0`: `threadLaunch` then switches to its `(iThread, nThreads)` mode, and a
threaded loop over zero items calls its function for the non-existent items `t, ..., n-1` in every thread
`t` (in particular for item 0). -/
theorem C02_zero_jobs_violation (n : Nat) (hn : 0 < n) :
    0 ∈ threadedLoopCalls n 0 ∧ threadedLoopCalls n 0 ≠ List.range 0 := by
  have h0 : 0 ∈ threadedLoopCalls n 0 := by
    unfold threadedLoopCalls launchArgs loopSub
    simp only [gt_iff_lt, Nat.lt_irrefl, if_false, List.mem_flatMap, List.mem_map, List.mem_range]
    refine ⟨(0, n), ⟨0, hn, rfl⟩, ?_⟩
    simp [List.mem_range'_1, hn]
  refine ⟨h0, fun h => ?_⟩
  rw [h] at h0; simp at h0

example : launchArgs 3 7 = [(0,2),(2,4),(4,7)] ∧ threadedLoopCalls 3 7 = [0,1,2,3,4,5,6] := by decide
example : threadedLoopCalls 2 0 = [0,1,1] := by decide

/-! ## C03 -/

/-- Whatever the schedule, once all threads have finished the shared total is the sum over all jobs. -/
theorem C03_accumulate {K : Type} [AddCommMonoid K] (f : Nat → K) (n N : Nat) (hn : 0 < n) (hN : 0 < N)
    (sched : List Nat) (hdone : ∀ t, t < n → (accRun f n N sched).th t = .done) :
    (accRun f n N sched).total = ∑ i ∈ range N, f i := by
  have h := (accRun_inv f n N hn hN sched).sum
  rw [sum_congr rfl (g := fun _ => 0)] at h
  · simpa using h
  · intro t ht; rw [hdone t (mem_range.mp ht)]; rfl

/-- At no point of any schedule two threads are inside the critical section. -/
theorem C03_mutual_exclusion {K : Type} [AddCommMonoid K] (f : Nat → K) (n N : Nat) (hn : 0 < n)
    (hN : 0 < N) (sched : List Nat) (t u : Nat) (ht : t < n) (hu : u < n)
    (h1 : crit ((accRun f n N sched).th t)) (h2 : crit ((accRun f n N sched).th u)) : t = u := by
  have hi := accRun_inv f n N hn hN sched
  have e1 := (hi.mutex t ht).mp h1
  have e2 := (hi.mutex u hu).mp h2
  rw [e1] at e2; exact Option.some.inj e2

/-- No deadlock: every partial schedule can be continued to one in which all threads have finished. -/
theorem C03_completes {K : Type} [AddCommMonoid K] (f : Nat → K) (n N : Nat) (hn : 0 < n) (hN : 0 < N)
    (sched : List Nat) :
    ∃ more, ∀ t, t < n → (accRun f n N (sched ++ more)).th t = .done := by
  induction hm : leftTot n (accHi n N) (accRun f n N sched) using Nat.strong_induction_on
    generalizing sched with
  | _ m ih =>
    by_cases hall : ∀ t, t < n → (accRun f n N sched).th t = .done
    · exact ⟨[], by simpa using hall⟩
    · have hi := accRun_inv f n N hn hN sched
      -- some thread can move: the lock holder if there is one, else any unfinished thread
      have hmove : ∃ t, t < n ∧ (accRun f n N sched).th t ≠ .done ∧
          ∀ a, (accRun f n N sched).th t = .wantLock a → (accRun f n N sched).lock = none := by
        rcases hl : (accRun f n N sched).lock with _ | t
        · push Not at hall
          obtain ⟨t, ht, hnd⟩ := hall
          exact ⟨t, ht, hnd, fun _ _ => rfl⟩
        · have ht := hi.holder t hl
          have hc := (hi.mutex t ht).mpr hl
          refine ⟨t, ht, ?_, ?_⟩
          · intro e; rw [e] at hc; exact hc
          · intro a e; rw [e] at hc; exact absurd hc (by simp [crit])
      obtain ⟨t, ht, hnd, hnw⟩ := hmove
      have hlt := accStep_progress f n (accHi n N) (accRun f n N sched) t ht hnd hnw
      have hstep : accRun f n N (sched ++ [t]) = accStep f n (accHi n N) (accRun f n N sched) t := by
        simp [accRun, List.foldl_append]
      obtain ⟨more, hmore⟩ := ih _ (by rw [← hm, hstep]; exact hlt) (sched ++ [t]) rfl
      exact ⟨t :: more, by simpa using hmore⟩

-- The hypotheses are met: 2 threads on 3 jobs, one concrete interleaving that finishes.
example : let s := accRun (K := Nat) (fun i => i + 10) 2 3 [0,1,0,1,0,1,0,1,0,0,0,1,1,1,1,1,1]
    (∀ t, t < 2 → s.th t = .done) ∧ s.total = 33 := by
  decide

/-! ## C05 -/

/-- Disjointness of the launch ranges. -/
theorem launch_disj (n N : Nat) (hN : 0 < N) :
    Disj n (fun t => ((launchArgs n N)[t]?.getD (0,0)).1) (accHi n N) := by
  intro t u i ht hu h1 h2 h3 h4
  simp only [lo_eq n N t hN ht, lo_eq n N u hN hu] at h1 h3
  rw [hi_eq n N t hN ht] at h2
  rw [hi_eq n N u hN hu] at h4
  rcases Nat.lt_trichotomy t u with h | h | h
  · have := mul_div_mono N n (show t+1 ≤ u from h); omega
  · exact h
  · have := mul_div_mono N n (show u+1 ≤ t from h); omega

/-- If the targets of the jobs are pairwise distinct then after any complete schedule of the single reads
and writes, every element has received exactly the increments addressed to it. -/
theorem C05_scatter_injective {K : Type} [AddCommMonoid K] (tgt : Nat → Nat) (inc y0 : Nat → K)
    (n N : Nat) (hn : 0 < n) (hN : 0 < N)
    (hinj : ∀ i j, i < N → j < N → tgt i = tgt j → i = j)
    (sched : List Nat) (hdone : (rmwRun tgt inc y0 n N sched).finished n (accHi n N)) (j : Nat) :
    (rmwRun tgt inc y0 n N sched).y j = scatterSum tgt inc y0 N j := by
  set lo : Nat → Nat := fun t => ((launchArgs n N)[t]?.getD (0,0)).1 with hlo
  have hhiN : ∀ t, t < n → accHi n N t ≤ N := by
    intro t ht
    rw [hi_eq n N t hN ht]
    have := mul_div_mono N n (show t+1 ≤ n from ht)
    rwa [Nat.mul_div_cancel_left N hn] at this
  have hinj' : InjRanges tgt n lo (accHi n N) := by
    intro t u a b ht hu _ ha _ hb e
    exact hinj a b (Nat.lt_of_lt_of_le ha (hhiN t ht)) (Nat.lt_of_lt_of_le hb (hhiN u hu)) e
  have hinv : RmwInv tgt inc y0 n lo (accHi n N) (rmwRun tgt inc y0 n N sched) := by
    unfold rmwRun
    have : ∀ s, RmwInv tgt inc y0 n lo (accHi n N) s →
        RmwInv tgt inc y0 n lo (accHi n N) (sched.foldl (rmwStep tgt inc n (accHi n N)) s) := by
      clear hdone
      induction sched with
      | nil => exact fun s h => h
      | cons t l ih => exact fun s h => ih _ (rmwStep_inv tgt inc y0 n lo _ (launch_disj n N hN) hinj' s t h)
    apply this
    refine ⟨?_, ?_, ?_, ?_⟩
    · intro t _; exact le_refl _
    · intro t ht i h1 h2
      have hlt : ¬ i < ((rmwInit y0 n N).th t).idx := Nat.not_lt.mpr h1
      rw [if_neg hlt]; rfl
    · intro j _; rfl
    · intro t _ i v h; simp [rmwInit] at h
  by_cases hj : ∃ i, i < N ∧ tgt i = j
  · obtain ⟨i, hi, rfl⟩ := hj
    -- the thread owning job i
    have hmem : i ∈ List.range N := List.mem_range.mpr hi
    have hc := (C02_exact_cover_partial n N hn hN).1
    unfold ExactCover at hc
    rw [← hc, launchArgs_eq n N hN] at hmem
    simp only [List.mem_flatMap, List.mem_map, List.mem_range] at hmem
    obtain ⟨_, ⟨t, ht, rfl⟩, hti⟩ := hmem
    obtain ⟨h1, h2⟩ := TaskDiv.mem_interval.mp hti
    have h1' : lo t ≤ i := by simpa [hlo, lo_eq n N t hN ht] using h1
    have h2' : i < accHi n N t := by rw [hi_eq n N t hN ht]; exact h2
    have hm := hinv.mem t ht i h1' h2'
    obtain ⟨k, hk1, hk2⟩ := hdone t ht
    rw [hk1] at hm
    rw [hm, if_pos (show i < (RmwPC.rd k : RmwPC K).idx from Nat.lt_of_lt_of_le h2' hk2)]
    unfold scatterSum
    congr 1
    rw [sum_eq_single i]
    · simp
    · intro b hb hbi
      rw [if_neg]
      intro e
      exact hbi (hinj b i (mem_range.mp hb) hi e)
    · intro hni; exact absurd (mem_range.mpr hi) hni
  · have hno : ∀ i, i < N → tgt i ≠ j := fun i hi e => hj ⟨i, hi, e⟩
    rw [hinv.other j]
    · unfold scatterSum
      rw [sum_eq_zero]
      · simp
      · intro i hi; rw [if_neg (hno i (mem_range.mp hi))]
    · intro t ht i _ h2
      exact hno i (Nat.lt_of_lt_of_le h2 (hhiN t ht))

/-- Gather (`y[i] += inc i`) needs no condition on the index array: its targets are the job numbers. -/
theorem C05_gather {K : Type} [AddCommMonoid K] (inc y0 : Nat → K) (n N : Nat) (hn : 0 < n) (hN : 0 < N)
    (sched : List Nat) (hdone : (rmwRun id inc y0 n N sched).finished n (accHi n N)) (j : Nat) :
    (rmwRun id inc y0 n N sched).y j = if j < N then y0 j + inc j else y0 j := by
  rw [C05_scatter_injective id inc y0 n N hn hN (fun i j _ _ e => e) sched hdone j]
  unfold scatterSum
  by_cases hj : j < N
  · simp [hj]
  · simp [hj]

/-- Below the threading cutoff (one thread) colliding targets are summed correctly as well. -/
theorem C05_scatter_one_thread {K : Type} [AddCommMonoid K] (tgt : Nat → Nat) (inc y0 : Nat → K)
    (N : Nat) (hN : 0 < N) (sched : List Nat)
    (hdone : (rmwRun tgt inc y0 1 N sched).finished 1 (accHi 1 N)) (j : Nat) :
    (rmwRun tgt inc y0 1 N sched).y j = scatterSum tgt inc y0 N j := by
  have hhi : accHi 1 N 0 = N := by rw [hi_eq 1 N 0 hN (by omega)]; simp
  -- invariant: the increments of the jobs before the current one have been applied
  have hinv : ∀ s : RmwState K,
      ((∀ j, s.y j = scatterSum tgt inc y0 (s.th 0).idx j) ∧ (s.th 0).idx ≤ N ∧
        (∀ i v, s.th 0 = .wr i v → i < N ∧ v = s.y (tgt i))) →
      (∀ j, (sched.foldl (rmwStep tgt inc 1 (accHi 1 N)) s).y j =
        scatterSum tgt inc y0 ((sched.foldl (rmwStep tgt inc 1 (accHi 1 N)) s).th 0).idx j) ∧
      ((sched.foldl (rmwStep tgt inc 1 (accHi 1 N)) s).th 0).idx ≤ N := by
    clear hdone
    induction sched with
    | nil => exact fun s h => ⟨h.1, h.2.1⟩
    | cons t l ih =>
      intro s ⟨h1, h2, h3⟩
      apply ih
      unfold rmwStep
      split
      case isFalse => exact ⟨h1, h2, h3⟩
      case isTrue ht =>
      have ht0 : t = 0 := by omega
      subst ht0
      split
      next i heq =>
        split
        next hlt =>
          rw [hhi] at hlt
          rw [heq] at h1 h2
          refine ⟨?_, ?_, ?_⟩
          · simpa [RmwPC.idx] using h1
          · simpa [RmwPC.idx] using h2
          · intro k v; dsimp only; rw [Function.update_self]; intro hh; cases hh; exact ⟨hlt, rfl⟩
        next => exact ⟨h1, h2, h3⟩
      next i v heq =>
        obtain ⟨hi, hv⟩ := h3 i v heq
        rw [heq] at h1 h2
        simp only [RmwPC.idx] at h1 h2
        refine ⟨?_, ?_, ?_⟩
        · intro k; dsimp only; rw [Function.update_self]; simp only [RmwPC.idx]
          unfold scatterSum at h1 ⊢
          rw [sum_range_succ]
          rcases eq_or_ne k (tgt i) with rfl | hne
          · rw [Function.update_self, hv, h1 (tgt i)]; simp [add_assoc]
          · rw [Function.update_of_ne hne, h1 k, if_neg (fun e => hne e.symm)]; simp
        · dsimp only; rw [Function.update_self]; exact hi
        · intro k w; dsimp only; rw [Function.update_self]; intro hh; cases hh
  have hinit := hinv (rmwInit y0 1 N) (by
    have h0 : ((rmwInit y0 1 N).th 0).idx = 0 := by
      simp only [rmwInit, RmwPC.idx]; rw [lo_eq 1 N 0 hN (by omega)]; simp
    refine ⟨?_, ?_, ?_⟩
    · intro j; rw [h0]; simp [scatterSum, rmwInit]
    · rw [h0]; omega
    · intro i v h; simp [rmwInit] at h)
  obtain ⟨k, hk1, hk2⟩ := hdone 0 (by omega)
  have e1 := hinit.1 j
  have e2 := hinit.2
  change (rmwRun tgt inc y0 1 N sched).y j =
    scatterSum tgt inc y0 ((rmwRun tgt inc y0 1 N sched).th 0).idx j at e1
  change ((rmwRun tgt inc y0 1 N sched).th 0).idx ≤ N at e2
  rw [hk1] at e1 e2
  simp only [RmwPC.idx] at e1 e2
  rw [hhi] at hk2
  have hkN : k = N := by omega
  rw [e1, hkN]

/-- Without the distinctness condition updates can be lost: two threads, two jobs with the same target,
one complete schedule after which only one of the two increments has arrived. -/
theorem C05_lost_update :
    ∃ (sched : List Nat), (rmwRun (K := Nat) (fun _ => 0) (fun _ => 1) (fun _ => 0) 2 2 sched).finished 2 (accHi 2 2) ∧
      (rmwRun (K := Nat) (fun _ => 0) (fun _ => 1) (fun _ => 0) 2 2 sched).y 0 = 1 ∧
      scatterSum (K := Nat) (fun _ => 0) (fun _ => 1) (fun _ => 0) 2 0 = 2 := by
  refine ⟨[0,1,0,1], ?_, by decide, by decide⟩
  intro t ht
  have : t = 0 ∨ t = 1 := by omega
  rcases this with rfl | rfl
  · exact ⟨1, rfl, by decide⟩
  · exact ⟨2, rfl, by decide⟩

-- Hypotheses of the positive theorems are met by an interleaved run of 2 threads on 3 jobs.
example : (rmwRun (K := Nat) (fun i => 5 - i) (fun i => i + 1) (fun _ => 0) 2 3 [1,0,1,0,1,1]).finished 2 (accHi 2 3) := by
  intro t ht
  have : t = 0 ∨ t = 1 := by omega
  rcases this with rfl | rfl
  · exact ⟨1, rfl, by decide⟩
  · exact ⟨3, rfl, by decide⟩

/-! ## C04 -/

mutual
/-- Every launch inside a suspended section or inside a multi-threaded launch asks for the automatic
number of threads or for one thread. `guarded` as in `exec`. -/
def NoExplicitInside : Call → Bool → Prop
  | .launch k body, guarded => (guarded = true → k ≤ 1) ∧ NoExplicitInsides body true
  | .suspended body, _ => NoExplicitInsides body true
def NoExplicitInsides : List Call → Bool → Prop
  | [], _ => True
  | c :: cs, guarded => NoExplicitInside c guarded ∧ NoExplicitInsides cs guarded
end

mutual
/-- No further suspended section inside a suspended section or launch (the flag is not a counter). -/
def Flat : Call → Bool → Prop
  | .launch _ body, _ => Flats body true
  | .suspended body, guarded => guarded = false ∧ Flats body true
def Flats : List Call → Bool → Prop
  | [], _ => True
  | c :: cs, guarded => Flat c guarded ∧ Flats cs guarded
end

mutual
theorem exec_ok (nProcs : Nat) : ∀ (c : Call) (guarded : Bool),
    NoExplicitInside c guarded → Flat c guarded →
    (exec nProcs c (!guarded) guarded).1 = (!guarded) ∧
      ∀ e ∈ (exec nProcs c (!guarded) guarded).2, e.1 = true → e.2 = 1
  | .launch k body, guarded, h1, h2 => by
    simp only [NoExplicitInside, Flat] at h1 h2
    obtain ⟨hk, hb⟩ := h1
    have ih := execs_ok nProcs body true hb h2
    simp only [Bool.not_true] at ih
    unfold exec
    cases guarded
    · simp only [Bool.not_false]
      split
      · refine ⟨rfl, ?_⟩
        intro e he
        rcases List.mem_cons.mp he with rfl | he
        · intro h; simp at h
        · exact ih.2 e he
      · rename_i hn
        have ihf := execs_ok_free nProcs body hb h2
        refine ⟨ihf.1, ?_⟩
        intro e he
        rcases List.mem_cons.mp he with rfl | he
        · intro h; simp at h
        · exact ihf.2 e he
    · have hk1 := hk rfl
      simp only [Bool.not_true]
      have hle : effThreads k false nProcs = 1 := by
        unfold effThreads
        split
        · simp
        · omega
      rw [if_neg (by omega)]
      refine ⟨ih.1, ?_⟩
      intro e he
      rcases List.mem_cons.mp he with rfl | he
      · intro _; exact hle
      · exact ih.2 e he
  | .suspended body, guarded, h1, h2 => by
    simp only [NoExplicitInside, Flat] at h1 h2
    obtain ⟨hg, h2⟩ := h2
    subst hg
    have ih := execs_ok nProcs body true h1 h2
    simp only [Bool.not_true] at ih
    unfold exec
    exact ⟨rfl, ih.2⟩
theorem execs_ok (nProcs : Nat) : ∀ (cs : List Call) (guarded : Bool),
    NoExplicitInsides cs guarded → Flats cs guarded →
    (execs nProcs cs (!guarded) guarded).1 = (!guarded) ∧
      ∀ e ∈ (execs nProcs cs (!guarded) guarded).2, e.1 = true → e.2 = 1
  | [], guarded, _, _ => by simp [execs]
  | c :: cs, guarded, h1, h2 => by
    simp only [NoExplicitInsides, Flats] at h1 h2
    have ih1 := exec_ok nProcs c guarded h1.1 h2.1
    have ih2 := execs_ok nProcs cs guarded h1.2 h2.2
    unfold execs
    simp only [ih1.1]
    refine ⟨ih2.1, ?_⟩
    intro e he
    rcases List.mem_append.mp he with he | he
    · exact ih1.2 e he
    · exact ih2.2 e he
/-- Bodies that satisfy the conditions inside a guarded region are harmless outside as well. -/
theorem execs_ok_free (nProcs : Nat) : ∀ (cs : List Call),
    NoExplicitInsides cs true → Flats cs true →
    (execs nProcs cs true false).1 = true ∧
      ∀ e ∈ (execs nProcs cs true false).2, e.1 = true → e.2 = 1
  | [], _, _ => by simp [execs]
  | c :: cs, h1, h2 => by
    simp only [NoExplicitInsides, Flats] at h1 h2
    have ih2 := execs_ok_free nProcs cs h1.2 h2.2
    have ih1 : (exec nProcs c true false).1 = true ∧
        ∀ e ∈ (exec nProcs c true false).2, e.1 = true → e.2 = 1 := by
      cases c with
      | launch k body =>
        have hb := h1.1
        have hf := h2.1
        simp only [NoExplicitInside, Flat] at hb hf
        exact exec_ok nProcs (.launch k body) false (by simp only [NoExplicitInside]; exact ⟨by simp, hb.2⟩)
          (by simp only [Flat]; exact hf)
      | suspended body =>
        have hf := h2.1
        simp [Flat] at hf
    unfold execs
    simp only [ih1.1]
    refine ⟨ih2.1, ?_⟩
    intro e he
    rcases List.mem_append.mp he with he | he
    · exact ih1.2 e he
    · exact ih2.2 e he
end

/-- Starting with threading enabled outside any guarded section: if no launch inside a guarded region
asks explicitly for several threads and suspended sections are not nested, then every launch in a guarded
region uses exactly one thread, and threading is enabled again at the end.
Full property (any program): false, see `C04_violation`. -/
theorem C04_suspension_partial (nProcs : Nat) (prog : List Call)
    (h1 : NoExplicitInsides prog false) (h2 : Flats prog false) :
    (execs nProcs prog true false).1 = true ∧
      ∀ e ∈ (execs nProcs prog true false).2, e.1 = true → e.2 = 1 := by
  simpa using execs_ok nProcs prog false h1 h2

/-- The number of threads of each launch: an explicit count is the one used, and an automatic one takes all processors exactly when
threading is enabled. -/
theorem C04_counts (nProcs : Nat) (k : Int) (body : List Call) (flag guarded : Bool) :
    (0 < k → (exec nProcs (.launch k body) flag guarded).2.head? = some (guarded, k.toNat)) ∧
    (k ≤ 0 → (exec nProcs (.launch k body) true guarded).2.head? = some (guarded, nProcs)) ∧
    (k ≤ 0 → (exec nProcs (.launch k body) false guarded).2.head? = some (guarded, 1)) := by
  refine ⟨fun h => ?_, fun h => ?_, fun h => ?_⟩
  · unfold exec
    have : effThreads k flag nProcs = k.toNat := by unfold effThreads; rw [if_neg (by omega)]
    rw [this]; simp only; split <;> rfl
  · unfold exec
    have : effThreads k true nProcs = nProcs := by unfold effThreads; rw [if_pos h]; rfl
    rw [this]; simp only; split <;> rfl
  · unfold exec
    have : effThreads k false nProcs = 1 := by unfold effThreads; rw [if_pos h]; rfl
    rw [this]; simp only; split <;> rfl

example : (exec 8 (.launch 3 [.launch 0 []]) true false).2 = [(false, 3), (true, 1)] := by decide

/-- Violation: inside a suspended section, one launch with an explicit thread count (as in
jdftx/electronic/ExCorr.cpp:319) switches threading back on, and the next automatic launch in the same
section uses all processors. -/
theorem C04_violation :
    (execs 8 [.suspended [.launch 8 [], .launch 0 []]] true false).2 = [(true, 8), (true, 8)] := by
  decide

/-- Violation by nesting: after an inner suspended section the outer one is no longer suspended. -/
theorem C04_violation_nested :
    (execs 8 [.suspended [.suspended [], .launch 0 []]] true false).2 = [(true, 8)] := by
  decide

example : NoExplicitInsides [.suspended [.launch 0 [], .launch 1 [.launch 0 []]], .launch 4 [.launch 0 []]] false ∧
    Flats [.suspended [.launch 0 [], .launch 1 [.launch 0 []]], .launch 4 [.launch 0 []]] false := by
  simp [NoExplicitInsides, NoExplicitInside, Flats, Flat]

end Jdftx.Thr
