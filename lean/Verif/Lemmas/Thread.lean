import Verif.Model.Thread
import Verif.Lemmas.TaskDivision
import Mathlib.Algebra.BigOperators.Intervals
import Mathlib.Algebra.Order.BigOperators.Group.Finset
import Mathlib.Tactic.Abel

namespace Jdftx.Thr
open Jdftx.Spec Finset

theorem launchArgs_eq (n N : Nat) (hN : 0 < N) :
    launchArgs n N = (List.range n).map fun t => ((t * N) / n, ((t+1) * N) / n) := by
  simp [launchArgs, hN]

theorem lo_eq (n N t : Nat) (hN : 0 < N) (ht : t < n) :
    ((launchArgs n N)[t]?.getD (0,0)).1 = (t * N) / n := by
  simp [launchArgs_eq n N hN, ht]

theorem hi_eq (n N t : Nat) (hN : 0 < N) (ht : t < n) : accHi n N t = ((t+1) * N) / n := by
  simp [accHi, launchArgs_eq n N hN, ht]

theorem mul_div_mono (N n : Nat) {a b : Nat} (h : a ≤ b) : (a * N) / n ≤ (b * N) / n :=
  Nat.div_le_div_right (Nat.mul_le_mul_right _ h)

/-! ### Accumulation invariant -/
section Acc
variable {K : Type} [AddCommMonoid K]

/-- What thread state `p` (with range end `h`) still has to add to the shared total. -/
def rem (f : Nat → K) (h : Nat) : AccPC K → K
  | .loop i a => a + ∑ j ∈ Ico i h, f j
  | .wantLock a => a
  | .haveLock a => a
  | .haveRead a _ => a
  | .wrote => 0
  | .done => 0

/-- Thread is in the critical section. -/
def crit : AccPC K → Prop
  | .haveLock _ => True
  | .haveRead _ _ => True
  | .wrote => True
  | _ => False

structure AccInv (f : Nat → K) (n : Nat) (hi : Nat → Nat) (goal : K) (s : AccState K) : Prop where
  sum : s.total + ∑ t ∈ range n, rem f (hi t) (s.th t) = goal
  mutex : ∀ t, t < n → (crit (s.th t) ↔ s.lock = some t)
  holder : ∀ t, s.lock = some t → t < n
  fresh : ∀ t, t < n → ∀ a old, s.th t = .haveRead a old → old = s.total

theorem sum_update (n : Nat) (g : Nat → AccPC K → K) (th : Nat → AccPC K) (t : Nat) (ht : t < n)
    (p : AccPC K) :
    ∃ R, ∑ u ∈ range n, g u (th u) = g t (th t) + R ∧
      ∑ u ∈ range n, g u (Function.update th t p u) = g t p + R := by
  have hm : t ∈ range n := mem_range.mpr ht
  refine ⟨∑ u ∈ (range n).erase t, g u (th u), (add_sum_erase _ _ hm).symm, ?_⟩
  rw [← add_sum_erase _ _ hm]
  congr 1
  · simp
  · apply sum_congr rfl
    intro u hu
    rw [Function.update_of_ne (ne_of_mem_erase hu)]

theorem accStep_inv (f : Nat → K) (n : Nat) (hi : Nat → Nat) (goal : K) (s : AccState K) (t : Nat)
    (h : AccInv f n hi goal s) : AccInv f n hi goal (accStep f n hi s t) := by
  unfold accStep
  split
  case isFalse => exact h
  case isTrue ht =>
  obtain ⟨hsum, hmutex, hholder, hfresh⟩ := h
  have hmt := hmutex t ht
  split
  next i accum heq =>
    split
    next hlt =>
      obtain ⟨R, h1, h2⟩ := sum_update n (fun u => rem f (hi u)) s.th t ht (.loop (i+1) (accum + f i))
      refine ⟨?_, ?_, hholder, ?_⟩
      · dsimp only; rw [h2]; rw [h1, heq] at hsum; rw [← hsum]
        simp only [rem]
        rw [sum_eq_sum_Ico_succ_bot hlt]; abel
      · intro u hu; dsimp only
        rcases eq_or_ne u t with rfl | hne
        · rw [Function.update_self]; rw [heq] at hmt; simpa [crit] using hmt
        · rw [Function.update_of_ne hne]; exact hmutex u hu
      · intro u hu a old; dsimp only
        rcases eq_or_ne u t with rfl | hne
        · rw [Function.update_self]; intro hh; cases hh
        · rw [Function.update_of_ne hne]; exact hfresh u hu a old
    next hge =>
      obtain ⟨R, h1, h2⟩ := sum_update n (fun u => rem f (hi u)) s.th t ht (.wantLock accum)
      refine ⟨?_, ?_, hholder, ?_⟩
      · dsimp only; rw [h2]; rw [h1, heq] at hsum; rw [← hsum]
        simp only [rem]
        rw [Ico_eq_empty (by omega)]; simp
      · intro u hu; dsimp only
        rcases eq_or_ne u t with rfl | hne
        · rw [Function.update_self]; rw [heq] at hmt; simpa [crit] using hmt
        · rw [Function.update_of_ne hne]; exact hmutex u hu
      · intro u hu a old; dsimp only
        rcases eq_or_ne u t with rfl | hne
        · rw [Function.update_self]; intro hh; cases hh
        · rw [Function.update_of_ne hne]; exact hfresh u hu a old
  next accum heq =>
    split
    next hlock =>
      obtain ⟨R, h1, h2⟩ := sum_update n (fun u => rem f (hi u)) s.th t ht (.haveLock accum)
      refine ⟨?_, ?_, ?_, ?_⟩
      · dsimp only; rw [h2]; rw [h1, heq] at hsum; exact hsum
      · intro u hu; dsimp only
        rcases eq_or_ne u t with rfl | hne
        · rw [Function.update_self]; simp [crit]
        · rw [Function.update_of_ne hne, hmutex u hu, hlock]
          simp only [reduceCtorEq, Option.some.injEq, false_iff]
          exact fun h => hne h.symm
      · intro u hu; dsimp only at hu; obtain rfl := Option.some.inj hu; exact ht
      · intro u hu a old; dsimp only
        rcases eq_or_ne u t with rfl | hne
        · rw [Function.update_self]; intro hh; cases hh
        · rw [Function.update_of_ne hne]; exact hfresh u hu a old
    next => exact ⟨hsum, hmutex, hholder, hfresh⟩
  next accum heq =>
    obtain ⟨R, h1, h2⟩ := sum_update n (fun u => rem f (hi u)) s.th t ht (.haveRead accum s.total)
    refine ⟨?_, ?_, hholder, ?_⟩
    · dsimp only; rw [h2]; rw [h1, heq] at hsum; exact hsum
    · intro u hu; dsimp only
      rcases eq_or_ne u t with rfl | hne
      · rw [Function.update_self]; rw [heq] at hmt; simpa [crit] using hmt
      · rw [Function.update_of_ne hne]; exact hmutex u hu
    · intro u hu a old; dsimp only
      rcases eq_or_ne u t with rfl | hne
      · rw [Function.update_self]; intro hh; cases hh; rfl
      · rw [Function.update_of_ne hne]; exact hfresh u hu a old
  next accum old heq =>
    obtain ⟨R, h1, h2⟩ := sum_update n (fun u => rem f (hi u)) s.th t ht .wrote
    have hold : old = s.total := hfresh t ht accum old heq
    have hl : s.lock = some t := hmt.mp (by rw [heq]; trivial)
    refine ⟨?_, ?_, hholder, ?_⟩
    · dsimp only; rw [h2]; rw [h1, heq] at hsum; rw [← hsum, hold]; simp only [rem]; abel
    · intro u hu; dsimp only
      rcases eq_or_ne u t with rfl | hne
      · rw [Function.update_self]; rw [heq] at hmt; simpa [crit] using hmt
      · rw [Function.update_of_ne hne]; exact hmutex u hu
    · intro u hu a old'; dsimp only
      rcases eq_or_ne u t with rfl | hne
      · rw [Function.update_self]; intro hh; cases hh
      · rw [Function.update_of_ne hne]
        intro hh
        have : s.lock = some u := (hmutex u hu).mp (by rw [hh]; trivial)
        rw [hl] at this; exact absurd (Option.some.inj this).symm hne
  next heq =>
    obtain ⟨R, h1, h2⟩ := sum_update n (fun u => rem f (hi u)) s.th t ht .done
    have hl : s.lock = some t := hmt.mp (by rw [heq]; trivial)
    refine ⟨?_, ?_, by simp, ?_⟩
    · dsimp only; rw [h2]; rw [h1, heq] at hsum; exact hsum
    · intro u hu; dsimp only
      rcases eq_or_ne u t with rfl | hne
      · rw [Function.update_self]; simp [crit]
      · rw [Function.update_of_ne hne, hmutex u hu, hl]
        simp only [reduceCtorEq, Option.some.injEq, iff_false]
        exact fun h => hne h.symm
    · intro u hu a old; dsimp only
      rcases eq_or_ne u t with rfl | hne
      · rw [Function.update_self]; intro hh; cases hh
      · rw [Function.update_of_ne hne]; exact hfresh u hu a old
  next => exact ⟨hsum, hmutex, hholder, hfresh⟩

theorem sum_chunks (f : Nat → K) (g : Nat → Nat) (h0 : g 0 = 0) (hm : ∀ i, g i ≤ g (i+1)) (n : Nat) :
    ∑ t ∈ range n, ∑ j ∈ Ico (g t) (g (t+1)), f j = ∑ j ∈ range (g n), f j := by
  induction n with
  | zero => simp [h0]
  | succ n ih => rw [sum_range_succ, ih, sum_range_add_sum_Ico _ (hm n)]
where
  sum_range_add_sum_Ico (f : Nat → K) {a b : Nat} (h : a ≤ b) :
      ∑ j ∈ range a, f j + ∑ j ∈ Ico a b, f j = ∑ j ∈ range b, f j := by
    rw [range_eq_Ico, range_eq_Ico]; exact sum_Ico_consecutive f (Nat.zero_le _) h

theorem accInit_inv (f : Nat → K) (n N : Nat) (hn : 0 < n) (hN : 0 < N) :
    AccInv f n (accHi n N) (∑ j ∈ range N, f j) (accInit n N) := by
  refine ⟨?_, ?_, ?_, ?_⟩
  · simp only [accInit, zero_add]
    have : ∀ t ∈ range n, rem f (accHi n N t) (AccPC.loop ((launchArgs n N)[t]?.getD (0,0)).1 0)
        = ∑ j ∈ Ico ((t*N)/n) (((t+1)*N)/n), f j := by
      intro t ht
      have ht' := mem_range.mp ht
      rw [lo_eq n N t hN ht', hi_eq n N t hN ht']
      simp [rem]
    rw [sum_congr rfl this, sum_chunks f (fun t => (t*N)/n) (by simp) (fun i => mul_div_mono N n (Nat.le_succ i)) n,
      Nat.mul_div_cancel_left N hn]
  · intro t _; simp [accInit, crit]
  · intro t h; simp [accInit] at h
  · intro t _ a old h; simp [accInit] at h

theorem accRun_inv (f : Nat → K) (n N : Nat) (hn : 0 < n) (hN : 0 < N) (sched : List Nat) :
    AccInv f n (accHi n N) (∑ j ∈ range N, f j) (accRun f n N sched) := by
  unfold accRun
  have : ∀ (s : AccState K), AccInv f n (accHi n N) (∑ j ∈ range N, f j) s →
      AccInv f n (accHi n N) (∑ j ∈ range N, f j) (sched.foldl (accStep f n (accHi n N)) s) := by
    induction sched with
    | nil => exact fun s h => h
    | cons t l ih => exact fun s h => ih _ (accStep_inv f n _ _ s t h)
  exact this _ (accInit_inv f n N hn hN)

/-- Number of steps thread state `p` still has to make. -/
def left (h : Nat) : AccPC K → Nat
  | .loop i _ => (h - i) + 5
  | .wantLock _ => 4
  | .haveLock _ => 3
  | .haveRead _ _ => 2
  | .wrote => 1
  | .done => 0

def leftTot (n : Nat) (hi : Nat → Nat) (s : AccState K) : Nat := ∑ t ∈ range n, left (hi t) (s.th t)

omit [AddCommMonoid K] in
theorem leftTot_update (n : Nat) (hi : Nat → Nat) (s s' : AccState K) (t : Nat) (ht : t < n) (p : AccPC K)
    (hs : s'.th = Function.update s.th t p) (hlt : left (hi t) p < left (hi t) (s.th t)) :
    leftTot n hi s' < leftTot n hi s := by
  have hm : t ∈ range n := mem_range.mpr ht
  unfold leftTot
  rw [← add_sum_erase _ _ hm, ← add_sum_erase (range n) (fun t => left (hi t) (s.th t)) hm]
  apply add_lt_add_of_lt_of_le
  · rw [hs]; simpa using hlt
  · apply le_of_eq
    apply sum_congr rfl
    intro u hu
    rw [hs, Function.update_of_ne (ne_of_mem_erase hu)]

/-- A thread that is neither finished nor waiting for a taken mutex makes progress. -/
theorem accStep_progress (f : Nat → K) (n : Nat) (hi : Nat → Nat) (s : AccState K) (t : Nat) (ht : t < n)
    (hnd : s.th t ≠ .done) (hnw : ∀ a, s.th t = .wantLock a → s.lock = none) :
    leftTot n hi (accStep f n hi s t) < leftTot n hi s := by
  unfold accStep
  rw [if_pos ht]
  split
  next i accum heq =>
    split
    · apply leftTot_update n hi s _ t ht _ rfl; rw [heq]; simp only [left]; omega
    · apply leftTot_update n hi s _ t ht _ rfl; rw [heq]; simp only [left]; omega
  next accum heq =>
    rw [hnw accum heq]
    apply leftTot_update n hi s _ t ht _ rfl; rw [heq]; simp [left]
  next accum heq => apply leftTot_update n hi s _ t ht _ rfl; rw [heq]; simp [left]
  next accum old heq => apply leftTot_update n hi s _ t ht _ rfl; rw [heq]; simp [left]
  next heq => apply leftTot_update n hi s _ t ht _ rfl; rw [heq]; simp [left]
  next heq => exact absurd heq hnd

end Acc

/-! ### Read-modify-write invariant -/
section Rmw
variable {K : Type} [AddCommMonoid K]

def RmwPC.idx : RmwPC K → Nat
  | .rd i => i
  | .wr i _ => i

structure RmwInv (tgt : Nat → Nat) (inc y0 : Nat → K) (n : Nat) (lo hi : Nat → Nat) (s : RmwState K) :
    Prop where
  ge : ∀ t, t < n → lo t ≤ (s.th t).idx
  mem : ∀ t, t < n → ∀ i, lo t ≤ i → i < hi t →
    s.y (tgt i) = if i < (s.th t).idx then y0 (tgt i) + inc i else y0 (tgt i)
  other : ∀ j, (∀ t, t < n → ∀ i, lo t ≤ i → i < hi t → tgt i ≠ j) → s.y j = y0 j
  wr : ∀ t, t < n → ∀ i v, s.th t = .wr i v → i < hi t ∧ v = y0 (tgt i)

/-- Ranges of different threads are disjoint. -/
def Disj (n : Nat) (lo hi : Nat → Nat) : Prop :=
  ∀ t u i, t < n → u < n → lo t ≤ i → i < hi t → lo u ≤ i → i < hi u → t = u

def InjRanges (tgt : Nat → Nat) (n : Nat) (lo hi : Nat → Nat) : Prop :=
  ∀ t u i j, t < n → u < n → lo t ≤ i → i < hi t → lo u ≤ j → j < hi u → tgt i = tgt j → i = j

theorem rmwStep_inv (tgt : Nat → Nat) (inc y0 : Nat → K) (n : Nat) (lo hi : Nat → Nat)
    (hd : Disj n lo hi) (hinj : InjRanges tgt n lo hi) (s : RmwState K) (t : Nat)
    (h : RmwInv tgt inc y0 n lo hi s) : RmwInv tgt inc y0 n lo hi (rmwStep tgt inc n hi s t) := by
  unfold rmwStep
  split
  case isFalse => exact h
  case isTrue ht =>
  obtain ⟨hge, hmem, hother, hwr⟩ := h
  split
  next i heq =>
    split
    next hlt =>
      have hidx : ∀ u, (Function.update s.th t (RmwPC.wr i (s.y (tgt i))) u).idx = (s.th u).idx := by
        intro u
        rcases eq_or_ne u t with rfl | hne
        · rw [Function.update_self, heq]; rfl
        · rw [Function.update_of_ne hne]
      refine ⟨?_, ?_, hother, ?_⟩
      · intro u hu; dsimp only; rw [hidx]; exact hge u hu
      · intro u hu j hj1 hj2; dsimp only; rw [hidx]; exact hmem u hu j hj1 hj2
      · intro u hu j v; dsimp only
        rcases eq_or_ne u t with rfl | hne
        · rw [Function.update_self]; intro hh; cases hh
          refine ⟨hlt, ?_⟩
          have hl := hge u hu; rw [heq] at hl
          have := hmem u hu i hl hlt
          rw [heq] at this; simpa [RmwPC.idx] using this
        · rw [Function.update_of_ne hne]; exact hwr u hu j v
    next => exact ⟨hge, hmem, hother, hwr⟩
  next i v heq =>
    obtain ⟨hih, hv⟩ := hwr t ht i v heq
    have hil := hge t ht; rw [heq] at hil
    replace hil : lo t ≤ i := hil
    have hit := hmem t ht i hil hih
    refine ⟨?_, ?_, ?_, ?_⟩
    · intro u hu; dsimp only
      rcases eq_or_ne u t with rfl | hne
      · rw [Function.update_self]; exact Nat.le_succ_of_le hil
      · rw [Function.update_of_ne hne]; exact hge u hu
    · intro u hu j hj1 hj2; dsimp only
      rcases eq_or_ne j i with rfl | hji
      · have hut : u = t := hd u t j hu ht hj1 hj2 hil hih
        subst hut
        simp [RmwPC.idx, hv]
      · have hne : tgt j ≠ tgt i := fun e => hji (hinj u t j i hu ht hj1 hj2 hil hih e)
        rw [Function.update_of_ne hne]
        rcases eq_or_ne u t with rfl | hne'
        · have hj := hmem u hu j hj1 hj2
          rw [heq] at hj
          have hiff : (j < i) ↔ (j < i + 1) := by omega
          simp only [Function.update_self, RmwPC.idx, hj, hiff]
        · simpa only [Function.update_of_ne hne'] using hmem u hu j hj1 hj2
    · intro j hj; dsimp only
      have hne : j ≠ tgt i := fun e => hj t ht i hil hih e.symm
      rw [Function.update_of_ne hne]; exact hother j hj
    · intro u hu j w; dsimp only
      rcases eq_or_ne u t with rfl | hne
      · rw [Function.update_self]; intro hh; cases hh
      · rw [Function.update_of_ne hne]; exact hwr u hu j w

end Rmw
end Jdftx.Thr
