import Verif.Lemmas.Collective

/-!
# C07 (collective error check), C08 (state files independent of process count)
-/
namespace Jdftx.Coll
open Jdftx.Spec

/-! ## C07 -/

/-- If no process recorded a message, all return; otherwise all stop, each with the same text: the
messages of all processes concatenated in rank order (and a line end). -/
theorem C07_agreement (msgs : List (List Char)) :
    ((∀ m ∈ msgs, m = []) → ∀ r ∈ checkErrors msgs, r = none) ∧
    ((∃ m ∈ msgs, m ≠ []) → ∀ r ∈ checkErrors msgs, r = some (msgs.flatten ++ ['\n'])) ∧
    (checkErrors msgs).length = msgs.length := by
  have hsum : (msgs.map List.length).sum = 0 ↔ ∀ m ∈ msgs, m = [] := by
    rw [← List.length_flatten, List.length_eq_zero_iff, List.flatten_eq_nil_iff]
  refine ⟨?_, ?_, ?_⟩
  · intro h r hr
    unfold checkErrors at hr
    rw [if_pos (hsum.mpr h)] at hr
    simp only [List.mem_map] at hr
    obtain ⟨_, _, rfl⟩ := hr
    rfl
  · rintro ⟨m, hm, hne⟩ r hr
    have hn0 : ¬ (msgs.map List.length).sum = 0 := fun h => hne (hsum.mp h m hm)
    unfold checkErrors at hr
    rw [if_neg hn0] at hr
    have h0 : (msgs.map fun _ => ({ bufTot := List.replicate (msgs.map List.length).sum ' ', pos := 0 } : Gather)) =
        msgs.map fun _ => gState msgs 0 := by
      simp [gState]
    simp only [h0] at hr
    rw [gather_fold msgs msgs.length (Nat.le_refl _)] at hr
    simp only [List.map_map, List.mem_map, Function.comp] at hr
    obtain ⟨_, _, rfl⟩ := hr
    simp [gState, List.length_flatten]
  · unfold checkErrors
    dsimp only
    split
    · simp
    · have h0 : (msgs.map fun _ => ({ bufTot := List.replicate (msgs.map List.length).sum ' ', pos := 0 } : Gather)) =
          msgs.map fun _ => gState msgs 0 := by
        simp [gState]
      simp only [h0]
      rw [gather_fold msgs msgs.length (Nat.le_refl _)]
      simp

example : checkErrors [['a'], [], ['b','c']] =
    [some ['a','b','c','\n'], some ['a','b','c','\n'], some ['a','b','c','\n']] := by decide
example : checkErrors [[], []] = [none, none] := by decide

/-! ## C08 -/

variable {β : Type}

/-- The file that every process count must produce: the data of state 0, then of state 1, and so on, and
nothing else. -/
def IsStateFile (M : Nat → List β) (nStates L : Nat) (f : File β) : Prop :=
  f.size = nStates * L ∧
  (∀ q, q < nStates → ∀ k, k < L → f.content (q*L + k) = (M q)[k]?) ∧
  (∀ i, nStates * L ≤ i → f.content i = none)

theorem owner_exists (N P q : Nat) (hP : 0 < P) (hq : q < N) :
    ∃ p, p < P ∧ (p*N)/P ≤ q ∧ q < ((p+1)*N)/P := by
  have hmem : q ∈ List.range N := List.mem_range.mpr hq
  have hc := TaskDiv.cover_of_mono (fun i => (i * N) / P) (by simp) (fun i => TaskDiv.div_mono N P i) P
  simp only [Nat.mul_div_cancel_left N hP] at hc
  rw [← hc] at hmem
  simp only [List.mem_flatMap, List.mem_map, List.mem_range] at hmem
  obtain ⟨_, ⟨k, hk, rfl⟩, hmk⟩ := hmem
  exact ⟨k, hk, TaskDiv.mem_interval.mp hmk⟩

theorem mul_int_le {a N r c : Nat} (h : N * r * c ≤ FileIO.INT_MAX) (h2 : N * r ≤ FileIO.INT_MAX) (ha : a ≤ N) :
    a * r * c ≤ FileIO.INT_MAX ∧ a * r ≤ FileIO.INT_MAX := by
  have h1 : a * r ≤ N * r := Nat.mul_le_mul_right r ha
  exact ⟨Nat.le_trans (Nat.mul_le_mul_right c h1) h, Nat.le_trans h1 h2⟩

theorem start_le (N P p : Nat) (h : p < P) : (p*N)/P ≤ N :=
  Nat.le_trans (Nat.div_le_div_right (Nat.mul_le_mul_right _ (Nat.le_succ p))) (stop_le N P p h)

/-- Writing with `P` processes: provided the element count fits a C++ `int` (hypotheses `h32`, `h32r`), no
process hits undefined behaviour, and after every complete schedule of the single writes the file is the
state file, independent of `P` and of the schedule.
Partial: without the size condition the property fails, see `C08_offset_overflow`. -/
theorem C08_write_partial (M : Nat → List β) (nStates nRows nCols sizeOf P : Nat) (hP : 0 < P)
    (hM : ∀ q, q < nStates → (M q).length = nRows * nCols * sizeOf)
    (h32 : nStates * nRows * nCols ≤ FileIO.INT_MAX) (h32r : nStates * nRows ≤ FileIO.INT_MAX)
    (sched : List Nat) :
    ∃ s, writeAll M nStates nRows nCols sizeOf P sched = .ok s ∧
      ((∀ p, p < P → rangeStop nStates P p ≤ (s.wr p).next) →
        IsStateFile M nStates (nRows * nCols * sizeOf) s.file) := by
  have hinit : (List.range P).mapM (writerInit nStates nRows nCols sizeOf P) =
      .ok ((List.range P).map fun p => ⟨(p*nStates)/P * (nRows*nCols*sizeOf), (p*nStates)/P⟩) := by
    have key : ∀ l : List Nat, (∀ i ∈ l, i < P) →
        l.mapM (writerInit nStates nRows nCols sizeOf P) =
          .ok (l.map fun p => ⟨(p*nStates)/P * (nRows*nCols*sizeOf), (p*nStates)/P⟩) := by
      intro l
      induction l with
      | nil => intro _; rfl
      | cons a l ih =>
        intro hl
        have ha := hl a (by simp)
        have hw : writerInit nStates nRows nCols sizeOf P a =
            .ok ⟨(a*nStates)/P * (nRows*nCols*sizeOf), (a*nStates)/P⟩ := by
          unfold writerInit
          rw [TaskDiv.init_eq nStates P a ha]
          obtain ⟨e1, e2⟩ := mul_int_le h32 h32r (start_le nStates P a ha)
          simp only
          rw [seekOffset_eq sizeOf e1 e2]
          rfl
        rw [List.mapM_cons, hw, FileIO.bind_ok, ih (fun i hi => hl i (by simp [hi])), FileIO.bind_ok]
        rfl
    exact key _ (fun i hi => List.mem_range.mp hi)
  generalize hL : nRows * nCols * sizeOf = L at *
  refine ⟨_, by unfold writeAll; rw [hinit]; rfl, ?_⟩
  intro hfin
  have hinv : ∀ (s0 : WState β), WInv M nStates L P s0 →
      WInv M nStates L P (sched.foldl (writeStep M nStates P) s0) := by
    clear hfin
    induction sched with
    | nil => exact fun s h => h
    | cons t l ih => exact fun s h => ih _ (writeStep_inv M nStates L P hM s t h)
  have hi := hinv ⟨File.empty, fun p => (((List.range P).map fun p =>
      (⟨(p*nStates)/P * L, (p*nStates)/P⟩ : Writer)).getD p ⟨0, 0⟩)⟩ (by
    have hg : ∀ p, p < P → (((List.range P).map fun p =>
        (⟨(p*nStates)/P * L, (p*nStates)/P⟩ : Writer)).getD p ⟨0, 0⟩) = ⟨(p*nStates)/P * L, (p*nStates)/P⟩ := by
      intro p hp; simp [List.getD_eq_getElem?_getD, hp]
    refine ⟨?_, ?_, ?_, ?_, ?_, ?_, ?_⟩
    · intro p hp; simp only [hg p hp]
    · intro p hp; simp only [hg p hp]; exact Nat.le_refl _
    · intro p hp; simp only [hg p hp]; exact TaskDiv.div_mono nStates P p
    · intro p hp q h1 h2 k hk
      simp only [hg p hp]
      rw [if_neg (by omega)]; rfl
    · intro i _; rfl
    · exact Nat.zero_le _
    · intro p hp h; simp only [hg p hp] at h; omega)
  refine ⟨?_, ?_, hi.out⟩
  · apply Nat.le_antisymm hi.size_le
    rcases Nat.eq_zero_or_pos nStates with h0 | hpos
    · simp [h0]
    · obtain ⟨p, hp, h1, h2⟩ := owner_exists nStates P (nStates-1) hP (by omega)
      have hf := hfin p hp
      rw [rangeStop_eq nStates P p hp] at hf
      have h4 := hi.size_ge p hp (by omega)
      refine Nat.le_trans ?_ h4
      exact Nat.mul_le_mul_right L (by omega)
  · intro q hq k hk
    obtain ⟨p, hp, h1, h2⟩ := owner_exists nStates P q hP hq
    have hf := hfin p hp
    rw [rangeStop_eq nStates P p hp] at hf
    rw [hi.mem p hp q h1 h2 k hk, if_pos (by omega)]

theorem mapM_content {f : Nat → Option β} : ∀ (l : List β) (pos : Nat),
    (∀ k, k < l.length → f (pos + k) = l[k]?) → (List.range' pos l.length).mapM f = some l
  | [], pos, _ => by simp
  | a :: l, pos, h => by
    have h0 := h 0 (by simp)
    simp only [Nat.add_zero, List.getElem?_cons_zero] at h0
    rw [List.length_cons, List.range'_succ, List.mapM_cons, h0,
      mapM_content l (pos+1) (fun k hk => by
        have := h (k+1) (by simpa using hk)
        rw [show pos + 1 + k = pos + (k+1) by omega, this]; simp)]
    rfl

/-- Reading a state file with any number `P` of processes gives process `p` the data of each of its
states. -/
theorem C08_read_partial (M : Nat → List β) (nStates nRows nCols sizeOf P p : Nat) (hp : p < P)
    (hM : ∀ q, q < nStates → (M q).length = nRows * nCols * sizeOf)
    (h32 : nStates * nRows * nCols ≤ FileIO.INT_MAX) (h32r : nStates * nRows ≤ FileIO.INT_MAX)
    (f : File β) (hf : IsStateFile M nStates (nRows * nCols * sizeOf) f) :
    ∃ td, TaskDiv.init nStates P p = some td ∧
      readProc f nStates nRows nCols sizeOf P p =
        .ok ((interval td.startMine td.stopMine).map fun q => (q, M q)) := by
  refine ⟨_, TaskDiv.init_eq nStates P p hp, ?_⟩
  obtain ⟨hsz, hc, _⟩ := hf
  have hloop : ∀ n q, q + n ≤ nStates →
      readLoop f (nRows*nCols*sizeOf) n q (q * (nRows*nCols*sizeOf)) =
        .ok ((List.range' q n).map fun q => (q, M q)) := by
    intro n
    induction n with
    | zero => intro q _; rfl
    | succ n ih =>
      intro q hq
      have hr : f.read (q * (nRows*nCols*sizeOf)) (nRows*nCols*sizeOf) = .ok (M q) := by
        unfold File.read
        have hlen := hM q (by omega)
        have := mapM_content (f := f.content) (M q) (q * (nRows*nCols*sizeOf))
          (fun k hk => hc q (by omega) k (by omega))
        rw [hlen] at this
        rw [this]
      unfold readLoop
      rw [hr, FileIO.bind_ok]
      have := ih (q+1) (by omega)
      rw [Nat.succ_mul] at this
      rw [this, FileIO.bind_ok, List.range'_succ]
      rfl
  unfold readProc
  rw [seekOffset_eq sizeOf h32 h32r, FileIO.bind_ok, if_neg (by omega), TaskDiv.init_eq nStates P p hp]
  obtain ⟨e1, e2⟩ := mul_int_le h32 h32r (start_le nStates P p hp)
  simp only
  rw [seekOffset_eq sizeOf e1 e2, FileIO.bind_ok, hloop]
  · rfl
  · have := stop_le nStates P p hp
    have := TaskDiv.div_mono nStates P p
    omega

/-- Write with `P` processes under any complete schedule, read with `P'` processes: every process of the
reading job gets the original data of its states. -/
theorem C08_roundtrip_partial (M : Nat → List β) (nStates nRows nCols sizeOf P P' p : Nat) (hP : 0 < P)
    (hp : p < P') (hM : ∀ q, q < nStates → (M q).length = nRows * nCols * sizeOf)
    (h32 : nStates * nRows * nCols ≤ FileIO.INT_MAX) (h32r : nStates * nRows ≤ FileIO.INT_MAX)
    (sched : List Nat) :
    ∃ s, writeAll M nStates nRows nCols sizeOf P sched = .ok s ∧
      ((∀ i, i < P → rangeStop nStates P i ≤ (s.wr i).next) →
        ∃ td, TaskDiv.init nStates P' p = some td ∧
          readProc s.file nStates nRows nCols sizeOf P' p =
            .ok ((interval td.startMine td.stopMine).map fun q => (q, M q))) := by
  obtain ⟨s, h1, h2⟩ := C08_write_partial M nStates nRows nCols sizeOf P hP hM h32 h32r sched
  exact ⟨s, h1, fun hfin => C08_read_partial M nStates nRows nCols sizeOf P' p hp hM h32 h32r s.file (h2 hfin)⟩

/-- The property fails for large data: with 4000 states and 1100 bands on 2 processes the file offset of
the second process overflows `int` before it is widened. -/
theorem C08_offset_overflow :
    writerInit 4000 1100 1100 16 2 1 = .error .ub := by decide

example : (0 < 3 ∧ 5 * 2 * 2 ≤ FileIO.INT_MAX) ∧
    (∀ q, q < 5 → ((fun q => List.replicate (2*2*16) q) q).length = 2 * 2 * 16) := by
  refine ⟨by decide, fun q _ => by simp⟩

-- A complete interleaved schedule exists for a small case (3 states, 2 processes).
example : (∃ s, writeAll (fun q => [q, q+10]) 3 1 2 1 2 [1,0,1] = .ok s ∧
    (s.wr 0).next = 1 ∧ (s.wr 1).next = 3 ∧ rangeStop 3 2 0 = 1 ∧ rangeStop 3 2 1 = 3 ∧
    (List.range 6).map s.file.content = [some 0, some 10, some 1, some 11, some 2, some 12]) := by
  refine ⟨_, rfl, ?_⟩
  decide

end Jdftx.Coll
