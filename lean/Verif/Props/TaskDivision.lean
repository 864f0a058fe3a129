import Verif.Lemmas.TaskDivision

/-!
# C01: work is divided over processes as an exact balanced partition
-/
namespace Jdftx.TaskDiv
open Jdftx.Spec

/-- Every process `iProc < P` gets a range (no out-of-range access happens), and in rank order the ranges
of the `P` processes are an exact, balanced cover of the tasks `0..N-1`. -/
theorem C01_partition (N P : Nat) (hP : 0 < P) :
    ∃ tds : List TaskDivision,
      (List.range P).mapM (init N P) = some tds ∧
      tds.length = P ∧
      ExactCover (tds.map fun td => (td.startMine, td.stopMine)) N ∧
      Balanced (tds.map fun td => (td.startMine, td.stopMine)) := by
  refine ⟨(List.range P).map fun i => ⟨(i * N) / P, ((i+1) * N) / P, mkStopArr N P⟩, ?_, by simp, ?_, ?_⟩
  · have key : ∀ l : List Nat, (∀ i ∈ l, i < P) →
        l.mapM (init N P) = some (l.map fun i => ⟨(i * N) / P, ((i+1) * N) / P, mkStopArr N P⟩) := by
      intro l
      induction l with
      | nil => intro _; rfl
      | cons a l ih =>
        intro hl
        rw [List.mapM_cons, init_eq N P a (hl a (by simp)), ih (fun i hi => hl i (by simp [hi]))]
        rfl
    exact key _ (fun i hi => List.mem_range.mp hi)
  · unfold ExactCover
    rw [List.map_map]
    have := cover_of_mono (fun i => (i * N) / P) (by simp) (fun i => div_mono N P i) P
    simp only [Nat.mul_div_cancel_left N hP] at this
    exact this
  · intro r hr s hs
    simp only [List.map_map, List.mem_map, List.mem_range, Function.comp] at hr hs
    obtain ⟨i, _, rfl⟩ := hr
    obtain ⟨j, _, rfl⟩ := hs
    have h1 := chunk_len N P i hP
    have h2 := chunk_len N P j hP
    dsimp only
    omega

/-- Asking for the owner of task `q < N` on any process `me` gives the one process whose range contains `q`;
and `isMine` answers yes on exactly that process. -/
theorem C01_owner (N P q me : Nat) (hq : q < N) (hme : me < P) :
    ∃ td, init N P me = some td ∧ td.whose q < P ∧
      (∀ iProc tdi, init N P iProc = some tdi → iProc < P →
        (tdi.isMine q = true ↔ iProc = td.whose q)) := by
  have hP : 0 < P := by omega
  refine ⟨_, init_eq N P me hme, ?_⟩
  -- the owner
  have hex : ∃ k, k < P ∧ (k * N) / P ≤ q ∧ q < ((k+1) * N) / P := by
    have hmem : q ∈ List.range N := List.mem_range.mpr hq
    have hc := cover_of_mono (fun i => (i * N) / P) (by simp) (fun i => div_mono N P i) P
    simp only [Nat.mul_div_cancel_left N hP] at hc
    rw [← hc] at hmem
    simp only [List.mem_flatMap, List.mem_map, List.mem_range] at hmem
    obtain ⟨_, ⟨k, hk, rfl⟩, hmk⟩ := hmem
    exact ⟨k, hk, mem_interval.mp hmk⟩
  obtain ⟨k, hkP, hk1, hk2⟩ := hex
  have hmono : ∀ a b, a ≤ b → (a * N) / P ≤ (b * N) / P := fun a b hab =>
    Nat.div_le_div_right (Nat.mul_le_mul_right _ hab)
  have hwhose : (TaskDivision.mk ((me * N) / P) (((me+1) * N) / P) (mkStopArr N P)).whose q = k := by
    unfold TaskDivision.whose
    have hlen : (mkStopArr N P).length = P := by simp [mkStopArr]
    have hget : ∀ i, i < P → (mkStopArr N P).getD i 0 = ((i+1) * N) / P := by
      intro i hi
      rw [List.getD_eq_getElem?_getD, stopArr_getElem? N P i hi, Nat.mul_comm]; rfl
    dsimp only
    split
    · apply upperBoundAux_spec _ q 0 _ k (Nat.zero_le _) (by omega) (by omega)
      · intro i hi hil
        rw [hget i (by omega)]
        exact Nat.le_trans (hmono (i+1) k hi) hk1
      · intro i hi hil
        rw [hget i (by omega)]
        exact Nat.lt_of_lt_of_le hk2 (hmono (k+1) (i+1) (by omega))
    · omega
  rw [hwhose]
  refine ⟨hkP, ?_⟩
  intro i tdi hi hiP
  rw [init_eq N P i hiP] at hi
  obtain rfl := Option.some.inj hi
  simp only [TaskDivision.isMine, Bool.and_eq_true, decide_eq_true_eq, ge_iff_le]
  constructor
  · rintro ⟨h1, h2⟩
    rcases Nat.lt_trichotomy i k with h | h | h
    · have := hmono (i+1) k h; omega
    · exact h
    · have := hmono (k+1) i h; omega
  · rintro rfl; exact ⟨hk1, hk2⟩

/-- Without MPI division the single range is everything and process 0 owns every task. -/
theorem C01_single (N : Nat) :
    ExactCover [((single N).startMine, (single N).stopMine)] N ∧ ∀ q, (single N).whose q = 0 := by
  constructor
  · simp [ExactCover, single, interval_zero]
  · intro q; simp [TaskDivision.whose, single]

-- Hypotheses are met by non-trivial cases: 7 tasks on 3 processes, and fewer tasks than processes.
example : (List.range 3).map (init 7 3) =
    [some ⟨0, 2, [2,4,7]⟩, some ⟨2, 4, [2,4,7]⟩, some ⟨4, 7, [2,4,7]⟩] := by decide
example : ∃ td, init 7 3 1 = some td ∧ td.whose 4 < 3 := by
  obtain ⟨td, h1, h2, _⟩ := C01_owner 7 3 4 1 (by omega) (by omega)
  exact ⟨td, h1, h2⟩
example : (List.range 4).map (init 2 4) =
    [some ⟨0, 0, [0,1,1,2]⟩, some ⟨0, 1, [0,1,1,2]⟩, some ⟨1, 1, [0,1,1,2]⟩, some ⟨1, 2, [0,1,1,2]⟩] := by
  decide

end Jdftx.TaskDiv
