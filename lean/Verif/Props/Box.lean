import Verif.Lemmas.Box
import Verif.Props.Thread

/-!
# C19, C20: grid indexing and grid loops
-/
namespace Jdftx.Box

/-! ## C19 -/

/-- Real-space indexing: valid coordinates have indices below `nr`, and every index below `nr` belongs to exactly one valid
coordinate triple. -/
theorem C19_real (S : Size) (hS : S.Pos) :
    (∀ v, ValidR S v → 0 ≤ fullRindex S v ∧ fullRindex S v < nr S) ∧
    (∀ i : Nat, i < nr S → ∃ v, (ValidR S v ∧ fullRindex S v = i) ∧ ∀ w, ValidR S w ∧ fullRindex S w = i → w = v) := by
  refine ⟨fullRindex_range S, fun i hi => ⟨rStart S i, ⟨rStart_valid S hS i hi, rStart_index S i⟩, ?_⟩⟩
  rintro w ⟨hw, e⟩
  exact fullRindex_inj S w _ hw (rStart_valid S hS i hi) (e.trans (rStart_index S i).symm)

/-- Full reciprocal-space indexing: the same with centred coordinates. -/
theorem C19_full (S : Size) (hS : S.Pos) :
    (∀ v, ValidG S v → 0 ≤ fullGindex S v ∧ fullGindex S v < nr S) ∧
    (∀ i : Nat, i < nr S → ∃ v, (ValidG S v ∧ fullGindex S v = i) ∧ ∀ w, ValidG S w ∧ fullGindex S w = i → w = v) := by
  refine ⟨fun v hv => fullRindex_range S _ (wrap_valid S v hv), fun i hi => ?_⟩
  have hr := rStart_valid S hS i hi
  refine ⟨foldV S (rStart S i), ⟨foldV_valid S _ hr, ?_⟩, ?_⟩
  · unfold fullGindex; rw [wrap_foldV S _ hr, rStart_index]
  · rintro w ⟨hw, e⟩
    have := fullRindex_inj S _ _ (wrap_valid S w hw) hr (e.trans (rStart_index S i).symm)
    rw [← this, foldV_wrap S w hw]

/-- Half reciprocal-space indexing: the same with centred coordinates whose last component is not negative, and the count
`nG`. -/
theorem C19_half (S : Size) (hS : S.Pos) :
    (∀ v, ValidH S v → 0 ≤ halfGindex S v ∧ halfGindex S v < nG S) ∧
    (∀ i : Nat, i < nG S → ∃ v, (ValidH S v ∧ halfGindex S v = i) ∧ ∀ w, ValidH S w ∧ halfGindex S w = i → w = v) := by
  refine ⟨fun v hv => ?_, fun i hi => ?_⟩
  · rw [halfGindex_eq, ← nr_halfSize]; exact fullRindex_range _ _ (wrapH_valid S v hv)
  · have hr := rStart_valid _ (halfSize_pos S hS) i (by rwa [nr_halfSize])
    refine ⟨foldH S (rStart (halfSize S) i), ⟨foldH_valid S hS _ hr, ?_⟩, ?_⟩
    · rw [halfGindex_eq, wrap_foldH S _ hr, rStart_index]
    · rintro w ⟨hw, e⟩
      rw [halfGindex_eq] at e
      have := fullRindex_inj _ _ _ (wrapH_valid S w hw) hr (e.trans (rStart_index _ i).symm)
      rw [← this, foldH_wrap S w hw]

/-- Wrapping identifies coordinates that differ by a period: for any coordinate within one period of the grid, the wrapped
coordinate is its remainder modulo the sample count. -/
theorem C19_periodic (S : Size) (v : IV) (hx : -(S.s0 : Int) ≤ v.x ∧ v.x < S.s0) (hy : -(S.s1 : Int) ≤ v.y ∧ v.y < S.s1)
    (hz : -(S.s2 : Int) ≤ v.z ∧ v.z < S.s2) :
    wrapGcoords S v = ⟨v.x % S.s0, v.y % S.s1, v.z % S.s2⟩ := by
  have key : ∀ (s : Nat) (g : Int), -(s : Int) ≤ g ∧ g < s → wrap1 s g = g % s := by
    intro s g h
    unfold wrap1
    split
    · rw [← Int.add_emod_right]; exact (Int.emod_eq_of_lt (by omega) (by omega)).symm
    · exact (Int.emod_eq_of_lt (by omega) (by omega)).symm
  simp only [wrapGcoords, key _ _ hx, key _ _ hy, key _ _ hz]

/-- The mirror index used to build conjugate coefficients is the full index of the negated coordinates: the wrapped
coordinate triple whose components are the remainders of the negated components. -/
theorem C19_mirror (S : Size) (hS : S.Pos) (v : IV) (hv : ValidG S v) :
    iFull S v = fullGindex S v ∧
    iFullRef S v = fullRindex S ⟨(-v.x) % S.s0, (-v.y) % S.s1, (-v.z) % S.s2⟩ ∧
    0 ≤ iFullRef S v ∧ iFullRef S v < nr S := by
  have key : ∀ (s : Nat) (g : Int), 0 < s → Centred s g → mirror1 s (wrap1 s g) = (-g) % s := by
    intro s g hs h
    unfold Centred at h
    unfold mirror1 wrap1
    by_cases h0 : g = 0
    · subst h0; simp
    · by_cases hg : g < 0
      · rw [if_pos hg, if_pos (by omega), Int.emod_eq_of_lt (by omega) (by omega)]; omega
      · rw [if_neg hg, if_pos h0, ← Int.add_emod_right, Int.emod_eq_of_lt (by omega) (by omega)]; omega
  have e : iFullRef S v = fullRindex S ⟨(-v.x) % S.s0, (-v.y) % S.s1, (-v.z) % S.s2⟩ := by
    simp only [iFullRef, wrapGcoords, key _ _ hS.1 hv.1, key _ _ hS.2.1 hv.2.1, key _ _ hS.2.2 hv.2.2]
  obtain ⟨h0, h1, h2⟩ := hS
  have m : ∀ (s : Nat) (g : Int), 0 < s → 0 ≤ g % s ∧ g % s < s := fun s g hs =>
    ⟨Int.emod_nonneg _ (by omega), Int.emod_lt_of_pos _ (by omega)⟩
  refine ⟨rfl, e, ?_⟩
  rw [e]
  exact fullRindex_range S _ ⟨m _ _ h0, m _ _ h1, m _ _ h2⟩

example : Size.Pos ⟨4, 3, 6⟩ ∧ ValidG ⟨4, 3, 6⟩ ⟨-1, 1, 3⟩ ∧ fullGindex ⟨4, 3, 6⟩ ⟨-1, 1, 3⟩ = 63 ∧
    iFullRef ⟨4, 3, 6⟩ ⟨-1, 1, 3⟩ = 33 ∧ halfGindex ⟨4, 3, 6⟩ ⟨-1, 1, 3⟩ = 43 := by
  exact ⟨by simp [Size.Pos], by simp [ValidG, Centred], by decide⟩

/-! ## C20 -/

/-- What a grid loop must do on the index range `[a,b)`: run its body once for each index, in increasing order, with the
coordinates belonging to that index. -/
def Visits (idx : IV → Int) (valid : IV → Prop) (a b : Nat) (l : List (Nat × IV)) : Prop :=
  l.map Prod.fst = List.range' a (b - a) ∧ ∀ p ∈ l, valid p.2 ∧ idx p.2 = p.1

theorem C20_real_loop (S : Size) (hS : S.Pos) (a b : Nat) (hb : b ≤ nr S) :
    Visits (fullRindex S) (ValidR S) a b (rLoop S a b) := by
  unfold rLoop
  rw [rLoopFrom_eq S hS b b a (by omega)]
  refine ⟨by simp [Function.comp_def], ?_⟩
  intro p hp
  simp only [List.mem_map, List.mem_range'_1] at hp
  obtain ⟨j, hj, rfl⟩ := hp
  exact ⟨rStart_valid S hS j (by omega), rStart_index S j⟩

/-- Partial: the range must not be empty, see `C20_full_loop_empty`. -/
theorem C20_full_loop_partial (S : Size) (hS : S.Pos) (a b fuel : Nat) (hb : b ≤ nr S) (hab : a < b) (hf : b ≤ fuel) :
    ∃ l, gLoop S fuel a b = .ok l ∧ Visits (fullGindex S) (ValidG S) a b l := by
  refine ⟨_, gLoopFrom_eq S hS b hb fuel a hab (by omega), by simp [Function.comp_def], ?_⟩
  intro p hp
  simp only [List.mem_map, List.mem_range'_1] at hp
  obtain ⟨j, hj, rfl⟩ := hp
  have hr := rStart_valid S hS j (by omega)
  refine ⟨foldV_valid S _ hr, ?_⟩
  simp only [fullGindex, gStart_eq]
  rw [wrap_foldV S _ hr, rStart_index]

theorem C20_half_loop (S : Size) (hS : S.Pos) (a b : Nat) (hb : b ≤ nG S) :
    Visits (halfGindex S) (ValidH S) a b (hLoop S a b) := by
  unfold hLoop
  rw [hLoopFrom_eq S hS b hb b a (by omega)]
  refine ⟨by simp [Function.comp_def], ?_⟩
  intro p hp
  simp only [List.mem_map, List.mem_range'_1] at hp
  obtain ⟨j, hj, rfl⟩ := hp
  have hr := rStart_valid _ (halfSize_pos S hS) j (by rw [nr_halfSize]; omega)
  refine ⟨by rw [hStart_eq]; exact foldH_valid S hS _ hr, ?_⟩
  simp only
  rw [hStart_eq, halfGindex_eq, wrap_foldH S _ hr, rStart_index]

/-- The full reciprocal-space loop fails on an empty range: it tests for the end only after the body, so it never meets the
end and runs out of the grid, however far it is followed. -/
theorem C20_full_loop_empty (S : Size) (a b fuel : Nat) (h : b ≤ a) : gLoop S fuel a b = .error .ub :=
  gLoopFrom_past S b fuel a _ h

/-- Such empty ranges do arise: with more threads than grid points, some thread is handed one. -/
theorem C20_violation (S : Size) (hS : S.Pos) (n : Nat) (hn : nr S < n) :
    ∃ r ∈ Thr.launchArgs n (nr S), ∀ fuel, gLoop S fuel r.1 r.2 = .error .ub := by
  have hpos : 0 < nr S := Nat.mul_pos (Nat.mul_pos hS.1 hS.2.1) hS.2.2
  refine ⟨(0, (0+1) * nr S / n), ?_, fun fuel => C20_full_loop_empty S _ _ _ ?_⟩
  · rw [Thr.launchArgs_eq n _ hpos]
    simp only [List.mem_map, List.mem_range]
    exact ⟨0, by omega, by simp⟩
  · simp only [zero_add, one_mul]
    rw [Nat.div_eq_of_lt hn]

/-- Distributed over threads, the real-space and half-space loops run their bodies exactly once per grid point, in any
number of threads. -/
theorem C20_threaded (S : Size) (hS : S.Pos) (n : Nat) (hn : 0 < n) :
    ((Thr.launchArgs n (nr S)).flatMap fun r => (rLoop S r.1 r.2).map Prod.fst) = List.range (nr S) ∧
    ((Thr.launchArgs n (nG S)).flatMap fun r => (hLoop S r.1 r.2).map Prod.fst) = List.range (nG S) := by
  have hr : 0 < nr S := Nat.mul_pos (Nat.mul_pos hS.1 hS.2.1) hS.2.2
  have hg : 0 < nG S := Nat.mul_pos (Nat.mul_pos hS.1 hS.2.1) (by omega)
  have bound : ∀ N, 0 < N → ∀ r ∈ Thr.launchArgs n N, r.2 ≤ N := by
    intro N hN r h
    rw [Thr.launchArgs_eq n N hN] at h
    simp only [List.mem_map, List.mem_range] at h
    obtain ⟨t, ht, rfl⟩ := h
    simp only
    calc (t+1) * N / n ≤ n * N / n := Nat.div_le_div_right (Nat.mul_le_mul_right _ (by omega))
      _ = N := Nat.mul_div_cancel_left N hn
  have congr : ∀ N, 0 < N → ∀ f : Nat × Nat → List Nat, (∀ a b, b ≤ N → f (a, b) = List.range' a (b - a)) →
      (Thr.launchArgs n N).flatMap f = List.range N := by
    intro N hN f hf
    rw [← (Thr.C02_exact_cover_partial n N hn hN).2.2]
    unfold Thr.threadedLoopCalls
    rw [List.flatMap_def, List.flatMap_def]
    congr 1
    apply List.map_congr_left
    intro r hr
    exact hf r.1 r.2 (bound N hN r hr)
  exact ⟨congr _ hr _ fun a b h => (C20_real_loop S hS a b h).1, congr _ hg _ fun a b h => (C20_half_loop S hS a b h).1⟩

/-- With at most as many threads as grid points the full reciprocal-space loop also covers the grid exactly once. Partial:
see `C20_violation` for more threads. -/
theorem C20_full_threaded_partial (S : Size) (hS : S.Pos) (n : Nat) (hn : 0 < n) (hle : n ≤ nr S) :
    ∃ ls, List.Forall₂ (fun r l => gLoop S (nr S) r.1 r.2 = .ok l ∧ Visits (fullGindex S) (ValidG S) r.1 r.2 l)
      (Thr.launchArgs n (nr S)) ls ∧ (ls.flatMap fun l => l.map Prod.fst) = List.range (nr S) := by
  have hpos : 0 < nr S := by omega
  have good : ∀ r ∈ Thr.launchArgs n (nr S), r.1 < r.2 ∧ r.2 ≤ nr S := by
    intro r h
    rw [Thr.launchArgs_eq n _ hpos] at h
    simp only [List.mem_map, List.mem_range] at h
    obtain ⟨t, ht, rfl⟩ := h
    simp only
    refine ⟨?_, ?_⟩
    · have : (t+1) * nr S = t * nr S + nr S := by ring
      rw [this]
      calc t * nr S / n < t * nr S / n + 1 := Nat.lt_succ_self _
        _ = (t * nr S + n) / n := (Nat.add_div_right _ hn).symm
        _ ≤ _ := Nat.div_le_div_right (by omega)
    · calc (t+1) * nr S / n ≤ n * nr S / n := Nat.div_le_div_right (Nat.mul_le_mul_right _ (by omega))
        _ = nr S := Nat.mul_div_cancel_left _ hn
  have build : ∀ rs : List (Nat × Nat), (∀ r ∈ rs, r.1 < r.2 ∧ r.2 ≤ nr S) →
      ∃ ls, List.Forall₂ (fun r l => gLoop S (nr S) r.1 r.2 = .ok l ∧ Visits (fullGindex S) (ValidG S) r.1 r.2 l) rs ls ∧
        (ls.flatMap fun l => l.map Prod.fst) = rs.flatMap fun r => Thr.loopSub r.1 r.2 := by
    intro rs
    induction rs with
    | nil => intro _; exact ⟨[], .nil, rfl⟩
    | cons r rs ih =>
      intro h
      obtain ⟨ls, h1, h2⟩ := ih fun r' hr' => h r' (List.mem_cons_of_mem _ hr')
      have hr := h r List.mem_cons_self
      obtain ⟨l, hl, hv⟩ := C20_full_loop_partial S hS r.1 r.2 (nr S) hr.2 hr.1 hr.2
      refine ⟨l :: ls, .cons ⟨hl, hv⟩ h1, ?_⟩
      simp only [List.flatMap_cons, h2, hv.1]; rfl
  obtain ⟨ls, h1, h2⟩ := build _ good
  exact ⟨ls, h1, h2.trans (Thr.C02_exact_cover_partial n _ hn hpos).2.2⟩

example : hLoop ⟨2, 2, 3⟩ 1 6 = [(1, ⟨0,0,1⟩), (2, ⟨0,1,0⟩), (3, ⟨0,1,1⟩), (4, ⟨1,0,0⟩), (5, ⟨1,0,1⟩)] := by decide
example : gLoop ⟨1, 2, 3⟩ 6 1 5 = .ok [(1, ⟨0,0,1⟩), (2, ⟨0,0,-1⟩), (3, ⟨0,1,0⟩), (4, ⟨0,1,1⟩)] := by decide
example : nr ⟨1, 1, 2⟩ < 4 ∧ gLoop ⟨1, 1, 2⟩ 100 0 0 = .error .ub := by decide

end Jdftx.Box
