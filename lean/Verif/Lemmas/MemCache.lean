import Verif.Model.MemCache
import Verif.Spec.Memory
import Mathlib.Data.List.Perm.Basic
import Mathlib.Algebra.BigOperators.Group.List.Basic
import Mathlib.Data.List.Perm.Lattice

namespace Jdftx.MemCache
open Jdftx.Spec

theorem disj_symm {a b : Nat × Nat} (h : BlocksDisjoint a b) : BlocksDisjoint b a :=
  ⟨fun e => h.1 e.symm, h.2.symm⟩

/-- Swap `(size, ptr)` cache entries into blocks. -/
def blk (e : Nat × Nat) : Nat × Nat := (e.2, e.1)

structure Inv (s : State) : Prop where
  live : s.sysLive.Perm (s.allocated ++ s.cache.map blk)
  disj : s.sysLive.Pairwise BlocksDisjoint
  atot : s.allocatedTot = totalSize s.allocated
  ctot : s.cacheTot = totalSize (s.cache.map blk)
  otot : s.overallTot = totalSize s.sysLive
  sorted : s.cache.Pairwise (fun a b => a.1 ≤ b.1)

theorem totalSize_perm {l m : List (Nat × Nat)} (h : l.Perm m) : totalSize l = totalSize m := by
  unfold totalSize; exact (h.map _).sum_eq

theorem totalSize_append (l m : List (Nat × Nat)) : totalSize (l ++ m) = totalSize l + totalSize m := by
  simp [totalSize]

theorem totalSize_cons (a : Nat × Nat) (l : List (Nat × Nat)) : totalSize (a :: l) = a.2 + totalSize l := by
  simp [totalSize]

theorem disj_both {s : State} (h : Inv s) : (s.allocated ++ s.cache.map blk).Pairwise BlocksDisjoint :=
  (h.live.pairwise_iff (fun h => disj_symm h)).mp h.disj

theorem cacheInsert_perm (e : Nat × Nat) : ∀ l, (cacheInsert e l).Perm (e :: l)
  | [] => List.Perm.refl _
  | x :: xs => by
    unfold cacheInsert
    split
    · exact List.Perm.refl _
    · exact ((cacheInsert_perm e xs).cons x).trans (List.Perm.swap e x xs)

theorem cacheInsert_sorted (e : Nat × Nat) : ∀ l, l.Pairwise (fun a b => a.1 ≤ b.1) →
    (cacheInsert e l).Pairwise (fun a b => a.1 ≤ b.1)
  | [], _ => by simp [cacheInsert]
  | x :: xs, h => by
    unfold cacheInsert
    rw [List.pairwise_cons] at h
    split
    · rename_i hlt
      rw [List.pairwise_cons, List.pairwise_cons]
      refine ⟨?_, h⟩
      intro y hy
      rcases List.mem_cons.mp hy with rfl | hy
      · omega
      · have := h.1 y hy; omega
    · rename_i hge
      rw [List.pairwise_cons]
      refine ⟨?_, cacheInsert_sorted e xs h.2⟩
      intro y hy
      rcases List.mem_cons.mp ((cacheInsert_perm e xs).mem_iff.mp hy) with rfl | hy
      · omega
      · exact h.1 y hy

theorem lowerBound_some {size : Nat} : ∀ {l pre post : List (Nat × Nat)} {e : Nat × Nat},
    lowerBound size l = some (pre, e, post) → l = pre ++ e :: post ∧ size ≤ e.1 ∧ ∀ x ∈ pre, x.1 < size
  | [], _, _, _, h => by simp [lowerBound] at h
  | x :: xs, pre, post, e, h => by
    unfold lowerBound at h
    split at h
    · rename_i hge
      cases h
      exact ⟨rfl, hge, by simp⟩
    · rename_i hlt
      rcases hr : lowerBound size xs with _ | ⟨p, e', q⟩
      · rw [hr] at h; simp at h
      · rw [hr] at h
        simp only [Option.map_some, Option.some.injEq, Prod.mk.injEq] at h
        obtain ⟨rfl, rfl, rfl⟩ := h
        obtain ⟨h1, h2, h3⟩ := lowerBound_some hr
        refine ⟨by rw [h1]; rfl, h2, ?_⟩
        intro y hy
        rcases List.mem_cons.mp hy with rfl | hy
        · omega
        · exact h3 y hy

theorem pairwise_of_sublist_sorted {l m : List (Nat × Nat)} (h : l.Sublist m)
    (hm : m.Pairwise (fun a b => a.1 ≤ b.1)) : l.Pairwise (fun a b => a.1 ≤ b.1) := hm.sublist h

theorem find_erase {ptr : Nat} : ∀ {l : List (Nat × Nat)} {e : Nat × Nat},
    l.find? (·.1 == ptr) = some e → e.1 = ptr ∧ e ∈ l ∧ l.Perm (e :: eraseAddr ptr l)
  | [], e, h => by simp at h
  | x :: xs, e, h => by
    by_cases hx : x.1 = ptr
    · have : e = x := by simpa [hx] using h.symm
      subst this
      refine ⟨hx, by simp, ?_⟩
      simp [eraseAddr, hx]
    · have h' : xs.find? (·.1 == ptr) = some e := by simpa [List.find?_cons, hx] using h
      obtain ⟨h1, h2, h3⟩ := find_erase h'
      refine ⟨h1, by simp [h2], ?_⟩
      have : eraseAddr ptr (x :: xs) = x :: eraseAddr ptr xs := by
        simp [eraseAddr, hx]
      rw [this]
      exact (h3.cons x).trans (List.Perm.swap e x _)

theorem free_inv {s s' : State} {ptr : Nat} (h : Inv s) (hf : free s ptr = .ok s') :
    Inv s' ∧ ∃ size, (ptr, size) ∈ s.allocated ∧ s.allocated.Perm ((ptr, size) :: s'.allocated) := by
  unfold free at hf
  split at hf
  · cases hf
  · rename_i e a size hfind
    cases hf
    obtain ⟨h1, h2, h3⟩ := find_erase hfind
    simp only at h1
    subst h1
    have hc := cacheInsert_perm (size, a) s.cache
    refine ⟨⟨?_, h.disj, ?_, ?_, h.otot, cacheInsert_sorted _ _ h.sorted⟩, size, h2, h3⟩
    · refine h.live.trans ?_
      refine (h3.append_right _).trans ?_
      refine List.Perm.trans ?_ ((hc.map blk).symm.append_left _)
      simp only [List.map_cons, blk, List.cons_append]
      exact List.perm_middle.symm
    · have := totalSize_perm h3
      rw [totalSize_cons] at this
      simp only
      rw [h.atot, this]; push_cast; omega
    · have := totalSize_perm (hc.map blk)
      rw [List.map_cons, totalSize_cons] at this
      simp only
      rw [this, h.ctot]; simp only [blk]; push_cast; omega

/-- State after releasing cache entries: same blocks in use, cache a suffix of the old one. -/
theorem freeRaw_inv {s : State} {e : Nat × Nat} {rest : List (Nat × Nat)} (h : Inv s)
    (hc : s.cache = e :: rest) :
    ∃ s', freeRaw s e rest = .ok s' ∧ Inv s' ∧ s'.allocated = s.allocated ∧ s'.cache = rest ∧
      s'.overallTot = s.overallTot - e.1 := by
  have hmem : (e.2, e.1) ∈ s.sysLive := by
    rw [h.live.mem_iff, hc]; simp [blk]
  unfold freeRaw
  rw [if_pos hmem]
  have hp : s.sysLive.Perm ((e.2, e.1) :: s.sysLive.erase (e.2, e.1)) := List.perm_cons_erase hmem
  refine ⟨_, rfl, ⟨?_, ?_, h.atot, ?_, ?_, ?_⟩, rfl, rfl, rfl⟩
  · have h2 : (s.allocated ++ s.cache.map blk).Perm ((e.2, e.1) :: (s.allocated ++ rest.map blk)) := by
      rw [hc]; simp only [List.map_cons, blk]; exact List.perm_middle
    exact ((hp.symm.trans h.live).trans h2).cons_inv
  · exact h.disj.sublist List.erase_sublist
  · have := h.ctot
    rw [hc, List.map_cons, totalSize_cons] at this
    simp only [blk] at this ⊢
    rw [this]; push_cast; omega
  · have := totalSize_perm hp
    rw [totalSize_cons] at this
    simp only
    rw [h.otot, this]; push_cast; omega
  · have := h.sorted
    rw [hc, List.pairwise_cons] at this
    exact this.2

theorem allocRaw_inv (p : Params) (hs : SystemAllocator p.sys) {s : State} (size : Nat) (h : Inv s) :
    (∃ s', allocRaw p s size = (none, s') ∧ Inv s' ∧ s'.allocated = s.allocated ∧ s'.cache = s.cache ∧
      s'.overallTot = s.overallTot ∧ p.sys s.sysLive size s.nAllocsRaw = none) ∨
    (∃ ptr s', allocRaw p s size = (some ptr, s') ∧ Inv s' ∧ s'.allocated = (ptr, size) :: s.allocated ∧
      s'.cache = s.cache ∧ s'.overallTot = s.overallTot + size) := by
  unfold allocRaw
  rcases hr : p.sys s.sysLive size s.nAllocsRaw with _ | ptr
  · left
    exact ⟨_, rfl, ⟨h.live, h.disj, h.atot, h.ctot, h.otot, h.sorted⟩, rfl, rfl, rfl, rfl⟩
  · right
    have hd := hs _ _ _ _ hr
    have hany : s.allocated.any (·.1 == ptr) = false := by
      rw [List.any_eq_false]
      intro b hb
      have hb' : b ∈ s.sysLive := h.live.mem_iff.mpr (List.mem_append_left _ hb)
      have := (hd b hb').1
      simpa using fun e => this e.symm
    refine ⟨ptr, _, rfl, ⟨?_, ?_, ?_, h.ctot, ?_, h.sorted⟩, ?_, rfl, rfl⟩
    · simp only [hany]
      exact h.live.cons _
    · simp only
      rw [List.pairwise_cons]
      exact ⟨hd, h.disj⟩
    · simp only [hany]
      rw [h.atot]; simp only [Bool.false_eq_true, if_false, totalSize_cons]; push_cast; omega
    · simp only [totalSize_cons, h.otot]; push_cast; omega
    · simp [hany]

theorem evictLoop_inv (p : Params) (size : Nat) : ∀ (l : List (Nat × Nat)) (s : State), Inv s → s.cache = l →
    l ≠ [] → ∃ s', evictLoop p size l s = .ok s' ∧ Inv s' ∧ s'.allocated = s.allocated ∧
      (s'.cache = [] ∨ s'.overallTot + size ≤ p.cacheSize)
  | [], _, _, _, h => absurd rfl h
  | e :: rest, s, h, hc, _ => by
    obtain ⟨s1, h1, h2, h3, h4, _⟩ := freeRaw_inv h hc
    unfold evictLoop
    rw [h1]
    simp only
    split
    · exact ⟨s1, rfl, h2, h3, Or.inr (by assumption)⟩
    · cases rest with
      | nil => exact ⟨s1, rfl, h2, h3, Or.inl h4⟩
      | cons e' rest' =>
        obtain ⟨s2, g1, g2, g3, g4⟩ := evictLoop_inv p size (e' :: rest') s1 h2 h4 (by simp)
        exact ⟨s2, g1, g2, g3.trans h3, g4⟩

/-- The retry loop either succeeds, or ends with an empty cache after a failed system allocation. -/
theorem retryLoop_inv (p : Params) (hs : SystemAllocator p.sys) (size : Nat) :
    ∀ (l : List (Nat × Nat)) (s : State), Inv s → s.cache = l →
    (∃ k live, live.Perm (s.allocated ++ s.cache.map blk) ∧ p.sys live size k = none) →
    ∃ r s', retryLoop p size l s = .ok (r, s') ∧ Inv s' ∧
      ((r = none ∧ s'.cache = [] ∧ s'.allocated = s.allocated ∧
          ∃ k live, live.Perm s.allocated ∧ p.sys live size k = none) ∨
       (∃ ptr, r = some ptr ∧ s'.allocated = (ptr, size) :: s.allocated ∧
          ((s.overallTot + size ≤ p.cacheSize ∨ s.cache = [] ) → s'.overallTot ≤ p.cacheSize ∨ s'.cache = [])))
  | [], s, h, hc, hfail => by
    refine ⟨none, s, rfl, h, Or.inl ⟨rfl, hc, rfl, ?_⟩⟩
    obtain ⟨k, live, h1, h2⟩ := hfail
    rw [hc] at h1
    exact ⟨k, live, by simpa using h1, h2⟩
  | e :: rest, s, h, hc, _ => by
    obtain ⟨s1, h1, h2, h3, h4, h5⟩ := freeRaw_inv h hc
    unfold retryLoop
    rw [h1]
    simp only
    rcases allocRaw_inv p hs size h2 with ⟨s2, g1, g2, g3, g4, g5, g6⟩ | ⟨ptr, s2, g1, g2, g3, g4, g5⟩
    · rw [g1]
      simp only
      obtain ⟨r, s3, k1, k2, k3⟩ := retryLoop_inv p hs size rest s2 g2 (g4.trans h4)
        ⟨s1.nAllocsRaw, s1.sysLive, by rw [g3, g4]; exact h2.live, g6⟩
      refine ⟨r, s3, k1, k2, ?_⟩
      rw [g3, h3] at k3
      rcases k3 with k3 | ⟨ptr, e1, e2, e3⟩
      · exact Or.inl k3
      · refine Or.inr ⟨ptr, e1, e2, fun hh => e3 ?_⟩
        rcases hh with hh | hh
        · left; rw [g5, h5]; omega
        · rw [hc] at hh; simp at hh
    · rw [g1]
      simp only
      refine ⟨some ptr, s2, rfl, g2, Or.inr ⟨ptr, rfl, by rw [g3, h3], ?_⟩⟩
      rintro (hh | hh)
      · left; rw [g5, h5]; omega
      · rw [hc] at hh; simp at hh

end Jdftx.MemCache
