import Verif.Lemmas.Matrix

/-!
# C50: matrix block access
-/
namespace Jdftx.Mtx
variable {K : Type}

theorem sel_of {start step stop c a : Int} (hc : Count start step stop c) (h0 : 0 ≤ a) (h : a < c) : Sel start step stop (start + a * step) a :=
  ⟨h0, rfl, (hc a h0).1 h⟩

/-- A single entry is read, or changed with all other entries kept, exactly when its row and column exist; otherwise the program stops. -/
theorem C50_element (m : M K) (i j : Int) (v : K) :
    (0 ≤ i ∧ i < m.nr ∧ 0 ≤ j ∧ j < m.nc →
      m.get i j = .ok (m.f (j * m.nr + i)) ∧
      ∃ r, m.set1 i j v = .ok r ∧ r.nr = m.nr ∧ r.nc = m.nc ∧ r.get i j = .ok v ∧
        ∀ i' j', (i' ≠ i ∨ j' ≠ j) → r.get i' j' = m.get i' j') ∧
    (¬ (0 ≤ i ∧ i < m.nr ∧ 0 ≤ j ∧ j < m.nc) → m.get i j = .error .die ∧ m.set1 i j v = .error .die) := by
  constructor
  · rintro ⟨h1, h2, h3, h4⟩
    have hg : ∀ r : M K, r.nr = m.nr → r.nc = m.nc → r.get i j = .ok (r.f (j * m.nr + i)) := by
      intro r e1 e2
      unfold M.get M.index
      rw [e1, e2, if_neg (by omega), if_neg (by omega), mul_comm]
    refine ⟨hg m rfl rfl, { m with f := Function.update m.f (m.index i j) v }, ?_, rfl, rfl, ?_, ?_⟩
    · unfold M.set1
      rw [if_neg (by omega), if_neg (by omega)]
    · rw [hg { m with f := Function.update m.f (m.index i j) v } rfl rfl]
      simp only [M.index]
      rw [mul_comm, Function.update_self]
    · intro i' j' hne
      unfold M.get
      simp only
      by_cases hi : i' < m.nr ∧ i' ≥ 0
      · by_cases hj : j' < m.nc ∧ j' ≥ 0
        · rw [if_neg (not_not.2 hi), if_neg (not_not.2 hj), if_neg (not_not.2 hi), if_neg (not_not.2 hj)]
          congr 1
          apply Function.update_of_ne
          unfold M.index
          intro he
          simp only at he
          rcases lt_trichotomy j' j with h | h | h
          · have : m.nr * (j' + 1) ≤ m.nr * j := mul_le_mul_of_nonneg_left (by omega) (by omega)
            rw [mul_add] at this; omega
          · subst h; omega
          · have : m.nr * (j + 1) ≤ m.nr * j' := mul_le_mul_of_nonneg_left (by omega) (by omega)
            rw [mul_add] at this; omega
        · rw [if_neg (not_not.2 hi), if_pos hj, if_neg (not_not.2 hi), if_pos hj]
      · rw [if_pos hi, if_pos hi]
  · intro h
    unfold M.get M.set1
    by_cases hi : i < m.nr ∧ i ≥ 0
    · rw [if_neg (not_not.2 hi), if_pos (by omega), if_neg (not_not.2 hi), if_pos (by omega)]
      exact ⟨rfl, rfl⟩
    · rw [if_pos hi, if_pos hi]
      exact ⟨rfl, rfl⟩

/-- Entry (1,2) of a 2 by 3 matrix exists, entry (2,0) does not. -/
example : (⟨2, 3, fun i => i⟩ : M Int).get 1 2 = .ok 5 ∧ (⟨2, 3, fun i => i⟩ : M Int).get 2 0 = .error .die := by decide

/-- Reading a block that lies inside the matrix returns exactly the addressed entries. -/
theorem C50_get (m : M K) (junk : Int → K) (iStart iStep iStop jStart jStep jStop : Int)
    (hi : Inside m.nr iStart iStep iStop) (hj : Inside m.nc jStart jStep jStop) :
    ∃ r, m.getSub junk iStart iStep iStop jStart jStep jStop = .ok r ∧
      Count iStart iStep iStop r.nr ∧ Count jStart jStep jStop r.nc ∧
      ∀ i j a b, Sel iStart iStep iStop i a → Sel jStart jStep jStop j b → entry r a b = entry m i j := by
  obtain ⟨i1, i2, i3, i4⟩ := hi
  obtain ⟨j1, j2, j3, j4⟩ := hj
  have ci := ceildiv_count iStart iStep iStop i2 i4
  have cj := ceildiv_count jStart jStep jStop j2 j4
  have pi := ceildiv_pos iStart iStep iStop i2 i4
  have pj := ceildiv_pos jStart jStep jStop j2 j4
  unfold M.getSub
  by_cases hfull : iStart = 0 ∧ iStep = 1 ∧ iStop = m.nr ∧ jStart = 0 ∧ jStep = 1 ∧ jStop = m.nc
  · rw [if_pos hfull]
    obtain ⟨rfl, rfl, rfl, rfl, rfl, rfl⟩ := hfull
    refine ⟨m, rfl, fun a _ => by omega, fun a _ => by omega, ?_⟩
    rintro i j a b ⟨_, h, _⟩ ⟨_, h', _⟩
    rw [h, h']; simp
  · rw [if_neg hfull, if_neg (by omega), if_neg (by omega), if_neg (by omega), if_neg (by omega), if_neg (by omega), if_neg (by omega)]
    simp only
    generalize hI : ceildiv (iStop - iStart) iStep = I at *
    generalize hJ : ceildiv (jStop - jStart) jStep = J at *
    rw [if_pos]
    · refine ⟨_, rfl, ci, cj, ?_⟩
      rintro i j a b ⟨ha, rfl, hi'⟩ ⟨hb, rfl, hj'⟩
      have ha2 := (ci a ha).2 hi'
      have hb2 := (cj b hb).2 hj'
      have key := (runUpd_map (pairs I.toNat J.toNat) (pairs_nodup _ _) (fun p => I * (p.2 : Int) + p.1)
        (fun p _ => m.f (m.nr * ((p.2 : Int) * jStep + jStart) + ((p.1 : Int) * iStep + iStart)))
        (fun p hp q hq h => by
          have hp := mem_pairs.1 hp
          have hq := mem_pairs.1 hq
          have := addr_inj (by omega) (by omega) (by omega) (by omega) h
          exact Prod.ext (by omega) (by omega)) junk).1 (a.toNat, b.toNat) (mem_pairs.2 ⟨by simp only; omega, by simp only; omega⟩)
      simp only [Int.toNat_of_nonneg ha, Int.toNat_of_nonneg hb] at key
      simp only [entry]
      rw [Int.add_comm iStart, Int.add_comm jStart]
      rw [← key]
      simp only [applyWrites, runUpd, List.map_map, Function.comp_def, List.foldl_map, fresh, M.index]
    · intro w hw
      obtain ⟨p, hp, rfl⟩ := List.mem_map.1 hw
      have hp := mem_pairs.1 hp
      have q1 := (ci p.1 (by omega)).1 (by omega)
      have q2 := (cj p.2 (by omega)).1 (by omega)
      have n1 : 0 ≤ (p.1 : Int) * iStep := Int.mul_nonneg (by omega) (by omega)
      have n2 : 0 ≤ (p.2 : Int) * jStep := Int.mul_nonneg (by omega) (by omega)
      exact ⟨addr_has (by omega) (by simp only [fresh]; omega) (by omega) (by simp only [fresh]; omega), addr_has (by omega) (by omega) (by omega) (by omega)⟩

/-- Reading a block that does not lie inside the matrix is rejected (the whole matrix may always be read, even when empty). -/
theorem C50_get_rejects (m : M K) (junk : Int → K) (iStart iStep iStop jStart jStep jStop : Int)
    (h : ¬(Inside m.nr iStart iStep iStop ∧ Inside m.nc jStart jStep jStop))
    (hfull : ¬(iStart = 0 ∧ iStep = 1 ∧ iStop = m.nr ∧ jStart = 0 ∧ jStep = 1 ∧ jStop = m.nc)) :
    m.getSub junk iStart iStep iStop jStart jStep jStop = .error .die := by
  unfold Inside at h
  unfold M.getSub
  rw [if_neg hfull]
  split
  · rfl
  split
  · rfl
  split
  · rfl
  split
  · rfl
  split
  · rfl
  split
  · rfl
  omega

theorem putSub_spec (op : K → K → K) (m src : M K) (iStart iStep iStop jStart jStep jStop : Int)
    (hi : Inside m.nr iStart iStep iStop) (hj : Inside m.nc jStart jStep jStop)
    (ci : Count iStart iStep iStop src.nr) (cj : Count jStart jStep jStop src.nc) (p1 : 0 ≤ src.nr) (p2 : 0 ≤ src.nc) :
    ∃ r, m.putSub op iStart iStep iStop jStart jStep jStop src = .ok r ∧ r.nr = m.nr ∧ r.nc = m.nc ∧
      ∀ i j, 0 ≤ i → i < m.nr → 0 ≤ j → j < m.nc →
        (∀ a b, Sel iStart iStep iStop i a → Sel jStart jStep jStop j b → entry r i j = op (entry m i j) (entry src a b)) ∧
        ((¬∃ a b, Sel iStart iStep iStop i a ∧ Sel jStart jStep jStop j b) → entry r i j = entry m i j) := by
  obtain ⟨i1, i2, i3, i4⟩ := hi
  obtain ⟨j1, j2, j3, j4⟩ := hj
  have eI : ceildiv (iStop - iStart) iStep = src.nr := count_unique (ceildiv_count iStart iStep iStop i2 i4) ci (ceildiv_pos iStart iStep iStop i2 i4).le p1
  have eJ : ceildiv (jStop - jStart) jStep = src.nc := count_unique (ceildiv_count jStart jStep jStop j2 j4) cj (ceildiv_pos jStart jStep jStop j2 j4).le p2
  have hmoves : subMoves m.nr iStart iStep src.nr jStart jStep src.nc
      = (pairs src.nc.toNat src.nr.toNat).map fun p => (m.nr * ((p.1 : Int) * jStep + jStart) + ((p.2 : Int) * iStep + iStart), src.nr * (p.1 : Int) + p.2) := by
    unfold subMoves
    rw [pairs_zipIdx, List.map_map]
    apply List.map_congr_left
    intro p _
    simp only [Function.comp]
    congr 1
    push_cast
    rw [Int.toNat_of_nonneg p1, Int.mul_comm]
  unfold M.putSub
  rw [if_neg (by omega), if_neg (by omega), if_neg (by omega), if_neg (by omega), if_neg (by omega), if_neg (by omega)]
  simp only [eI, eJ, not_true, if_false, hmoves]
  have bnd : ∀ p ∈ pairs src.nc.toNat src.nr.toNat, 0 ≤ (p.2 : Int) * iStep + iStart ∧ (p.2 : Int) * iStep + iStart < m.nr ∧
      0 ≤ (p.1 : Int) * jStep + jStart ∧ (p.1 : Int) * jStep + jStart < m.nc := by
    intro p hp
    have hp := mem_pairs.1 hp
    have q1 := (ci p.2 (by omega)).1 (by omega)
    have q2 := (cj p.1 (by omega)).1 (by omega)
    have n1 : 0 ≤ (p.2 : Int) * iStep := Int.mul_nonneg (by omega) (by omega)
    have n2 : 0 ≤ (p.1 : Int) * jStep := Int.mul_nonneg (by omega) (by omega)
    omega
  have inj : ∀ p ∈ pairs src.nc.toNat src.nr.toNat, ∀ q ∈ pairs src.nc.toNat src.nr.toNat,
      m.nr * ((p.1 : Int) * jStep + jStart) + ((p.2 : Int) * iStep + iStart) = m.nr * ((q.1 : Int) * jStep + jStart) + ((q.2 : Int) * iStep + iStart) → p = q := by
    intro p hp q hq h
    have hp' := bnd p hp
    have hq' := bnd q hq
    obtain ⟨e1, e2⟩ := addr_inj hp'.1 hp'.2.1 hq'.1 hq'.2.1 h
    have e1' : (p.2 : Int) = q.2 := Int.eq_of_mul_eq_mul_right (a := iStep) (by omega) (by omega)
    have e2' : (p.1 : Int) = q.1 := Int.eq_of_mul_eq_mul_right (a := jStep) (by omega) (by omega)
    exact Prod.ext (by omega) (by omega)
  have hok : ∀ w ∈ (pairs src.nc.toNat src.nr.toNat).map fun p => (m.nr * ((p.1 : Int) * jStep + jStart) + ((p.2 : Int) * iStep + iStart), src.nr * (p.1 : Int) + p.2),
      Buf.Has (m.nr * m.nc) w.1 ∧ Buf.Has (src.nr * src.nc) w.2 := by
    intro w hw
    obtain ⟨p, hp, rfl⟩ := List.mem_map.1 hw
    have hb := bnd p hp
    have hp := mem_pairs.1 hp
    exact ⟨addr_has hb.1 hb.2.1 hb.2.2.1 hb.2.2.2, addr_has (by omega) (by omega) (by omega) (by omega)⟩
  rw [if_pos hok]
  obtain ⟨k1, k2⟩ := runUpd_map (pairs src.nc.toNat src.nr.toNat) (pairs_nodup _ _)
    (fun p => m.nr * ((p.1 : Int) * jStep + jStart) + ((p.2 : Int) * iStep + iStart)) (fun p old => op old (src.f (src.nr * (p.1 : Int) + p.2))) inj m.f
  have hfold : ∀ f : Int → K, ((pairs src.nc.toNat src.nr.toNat).map fun p => (m.nr * ((p.1 : Int) * jStep + jStart) + ((p.2 : Int) * iStep + iStart), src.nr * (p.1 : Int) + p.2)).foldl
        (fun f w => Function.update f w.1 (op (f w.1) (src.f w.2))) f
      = runUpd ((pairs src.nc.toNat src.nr.toNat).map fun p => (m.nr * ((p.1 : Int) * jStep + jStart) + ((p.2 : Int) * iStep + iStart), fun old => op old (src.f (src.nr * (p.1 : Int) + p.2)))) f := by
    intro f; simp only [runUpd, List.foldl_map]
  refine ⟨_, rfl, rfl, rfl, ?_⟩
  intro i j hi0 hi1 hj0 hj1
  simp only [entry, hfold]
  constructor
  · rintro a b ⟨ha, rfl, ha'⟩ ⟨hb, rfl, hb'⟩
    have ha2 := (ci a ha).2 ha'
    have hb2 := (cj b hb).2 hb'
    have := k1 (b.toNat, a.toNat) (mem_pairs.2 ⟨by simp only; omega, by simp only; omega⟩)
    simp only [Int.toNat_of_nonneg ha, Int.toNat_of_nonneg hb] at this
    rw [Int.add_comm iStart, Int.add_comm jStart]
    exact this
  · intro hno
    apply k2
    intro p hp h
    have hb := bnd p hp
    obtain ⟨e1, e2⟩ := addr_inj hi0 hi1 hb.1 hb.2.1 h
    have hp := mem_pairs.1 hp
    refine hno ⟨p.2, p.1, ⟨by omega, by omega, ?_⟩, ⟨by omega, by omega, ?_⟩⟩
    · have := (ci p.2 (by omega)).1 (by omega); omega
    · have := (cj p.1 (by omega)).1 (by omega); omega

/-- Setting a block that lies inside the matrix changes exactly the addressed entries. -/
theorem C50_set_partial (m src : M K) (iStart iStep iStop jStart jStep jStop : Int)
    (hi : Inside m.nr iStart iStep iStop) (hj : Inside m.nc jStart jStep jStop)
    (ci : Count iStart iStep iStop src.nr) (cj : Count jStart jStep jStop src.nc) (p1 : 0 ≤ src.nr) (p2 : 0 ≤ src.nc) :
    ∃ r, m.setSub iStart iStep iStop jStart jStep jStop src = .ok r ∧ r.nr = m.nr ∧ r.nc = m.nc ∧
      ∀ i j, 0 ≤ i → i < m.nr → 0 ≤ j → j < m.nc →
        (∀ a b, Sel iStart iStep iStop i a → Sel jStart jStep jStop j b → entry r i j = entry src a b) ∧
        ((¬∃ a b, Sel iStart iStep iStop i a ∧ Sel jStart jStep jStop j b) → entry r i j = entry m i j) :=
  putSub_spec _ m src iStart iStep iStop jStart jStep jStop hi hj ci cj p1 p2

/-- Accumulating on a block adds to exactly the addressed entries. -/
theorem C50_accum_partial [Add K] (m src : M K) (iStart iStep iStop jStart jStep jStop : Int)
    (hi : Inside m.nr iStart iStep iStop) (hj : Inside m.nc jStart jStep jStop)
    (ci : Count iStart iStep iStop src.nr) (cj : Count jStart jStep jStop src.nc) (p1 : 0 ≤ src.nr) (p2 : 0 ≤ src.nc) :
    ∃ r, m.accumSub iStart iStep iStop jStart jStep jStop src = .ok r ∧ r.nr = m.nr ∧ r.nc = m.nc ∧
      ∀ i j, 0 ≤ i → i < m.nr → 0 ≤ j → j < m.nc →
        (∀ a b, Sel iStart iStep iStop i a → Sel jStart jStep jStop j b → entry r i j = entry m i j + entry src a b) ∧
        ((¬∃ a b, Sel iStart iStep iStop i a ∧ Sel jStart jStep jStop j b) → entry r i j = entry m i j) :=
  putSub_spec _ m src iStart iStep iStop jStart jStep jStop hi hj ci cj p1 p2

/-- Reading back the block that was set gives the values set. -/
theorem C50_roundtrip_partial (m src : M K) (junk : Int → K) (iStart iStep iStop jStart jStep jStop : Int)
    (hi : Inside m.nr iStart iStep iStop) (hj : Inside m.nc jStart jStep jStop)
    (ci : Count iStart iStep iStop src.nr) (cj : Count jStart jStep jStop src.nc) (p1 : 0 ≤ src.nr) (p2 : 0 ≤ src.nc) :
    ∃ r s, m.setSub iStart iStep iStop jStart jStep jStop src = .ok r ∧ r.getSub junk iStart iStep iStop jStart jStep jStop = .ok s ∧
      ∀ a b, 0 ≤ a → a < src.nr → 0 ≤ b → b < src.nc → entry s a b = entry src a b := by
  obtain ⟨r, hr, e1, e2, h⟩ := C50_set_partial m src iStart iStep iStop jStart jStep jStop hi hj ci cj p1 p2
  obtain ⟨s, hs, _, _, h'⟩ := C50_get r junk iStart iStep iStop jStart jStep jStop (by rw [e1]; exact hi) (by rw [e2]; exact hj)
  refine ⟨r, s, hr, hs, fun a b ha ha' hb hb' => ?_⟩
  have sa := sel_of ci ha ha'
  have sb := sel_of cj hb hb'
  rw [h' _ _ a b sa sb]
  obtain ⟨i1, i2, i3, i4⟩ := hi
  obtain ⟨j1, j2, j3, j4⟩ := hj
  have n1 : 0 ≤ a * iStep := Int.mul_nonneg ha (by omega)
  have n2 : 0 ≤ b * jStep := Int.mul_nonneg hb (by omega)
  have l1 := sa.2.2
  have l2 := sb.2.2
  exact (h _ _ (by omega) (by omega) (by omega) (by omega)).1 a b sa sb

/-- Setting or accumulating is rejected when the rows do not lie inside the matrix, a step is not positive, or the source has the
wrong shape. -/
theorem C50_put_rejects_partial (op : K → K → K) (m src : M K) (iStart iStep iStop jStart jStep jStop : Int)
    (h : ¬Inside m.nr iStart iStep iStop ∨ jStep ≤ 0 ∨ (jStart < jStop ∧ ¬(Count iStart iStep iStop src.nr ∧ Count jStart jStep jStop src.nc))) :
    m.putSub op iStart iStep iStop jStart jStep jStop src = .error .die := by
  unfold Inside at h
  unfold M.putSub
  split
  · rfl
  split
  · rfl
  split
  · rfl
  split
  · rfl
  split
  · rfl
  split
  · rfl
  simp only
  split
  · rfl
  split
  · rfl
  rename_i h1 h2 h3 h4 h5 h6 h7 h8
  exfalso
  rcases h with h | h | ⟨hl, h⟩
  · omega
  · omega
  · apply h
    rw [not_not] at h7 h8
    rw [← h7, ← h8]
    exact ⟨ceildiv_count _ _ _ (by omega) (by omega), ceildiv_count _ _ _ hl (by omega)⟩

/-- The full statement fails for the columns: setting columns 0 and 1 of a matrix that has only one column is not rejected, and
writes outside the matrix. -/
theorem C50_column_violation :
    let m : M Int := ⟨1, 1, fun _ => 0⟩
    ¬Inside m.nc 0 1 2 ∧ m.setSub 0 1 1 0 1 2 ⟨1, 2, fun _ => 7⟩ = .error .ub ∧
    ¬Inside m.nc (-1) 1 0 ∧ m.setSub 0 1 1 (-1) 1 0 ⟨1, 1, fun _ => 7⟩ = .error .ub := by
  refine ⟨by unfold Inside; simp, ?_, by unfold Inside; simp, ?_⟩
  · unfold M.setSub M.putSub
    rw [if_neg (by decide), if_neg (by decide), if_neg (by decide), if_neg (by decide), if_neg (by decide), if_neg (by decide)]
    simp only
    rw [if_neg (by decide), if_neg (by decide), if_neg (by decide)]
  · unfold M.setSub M.putSub
    rw [if_neg (by decide), if_neg (by decide), if_neg (by decide), if_neg (by decide), if_neg (by decide), if_neg (by decide)]
    simp only
    rw [if_neg (by decide), if_neg (by decide), if_neg (by decide)]

/-- Every second row of the last two columns of a 5x3 matrix: the hypotheses hold. -/
example : Inside 5 0 2 5 ∧ Inside 3 1 1 3 ∧ Count 0 2 5 3 ∧ Count 1 1 3 2 := by
  refine ⟨by unfold Inside; omega, by unfold Inside; omega, fun a _ => by omega, fun a _ => by omega⟩

/-- Reading them from the matrix with entries `10*row + column`. -/
example : (match (⟨5, 3, fun k => 10 * (k % 5) + k / 5⟩ : M Int).getSub (fun _ => -1) 0 2 5 1 1 3 with
    | .ok r => (r.nr, r.nc, (List.range 6).map fun k => r.f (k : Nat))
    | .error _ => (0, 0, [])) = (3, 2, [1, 21, 41, 2, 22, 42]) := by decide

end Jdftx.Mtx
