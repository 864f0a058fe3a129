import Verif.Props.MatrixBlock

/-!
# C52, C63, C51: matrix products
-/
namespace Jdftx.Mtx
variable {K : Type} [CommRing K] [StarRing K]

/-- Updates of an undivided call. -/
def opsOf (g : Gemm K) : List (Upd K) := (pairs g.n g.m).map fun p => (g.cOff + p.2 + g.ldc * p.1, g.elem p.2 p.1)

/-- The call has admissible arguments. -/
def Gemm.Ok (g : Gemm K) : Prop :=
  (g.lda ≥ 1 ∧ g.lda ≥ (if g.ta = .no then g.m else g.k)) ∧ (g.ldb ≥ 1 ∧ g.ldb ≥ (if g.tb = .no then g.k else g.n)) ∧
  (g.ldc ≥ 1 ∧ g.ldc ≥ g.m) ∧
  ∀ i < g.m, ∀ j < g.n, Buf.Has g.cSize (g.cOff + i + g.ldc * j) ∧
      ∀ l < g.k, Buf.Has g.A.size (g.aOff + g.ta.addr g.lda i l) ∧ Buf.Has g.B.size (g.bOff + g.tb.addr g.ldb l j)

theorem cblas_ok {g : Gemm K} : g.Ok → cblasZgemm g = .ok (opsOf g) := by
  rintro ⟨h1, h2, h3, h4⟩
  unfold cblasZgemm
  rw [if_neg (not_not.2 h1), if_neg (not_not.2 h2), if_neg (not_not.2 h3), if_pos h4]
  rfl

theorem ok_of_cblas {g : Gemm K} {l : List (Upd K)} (h : cblasZgemm g = .ok l) : g.Ok ∧ l = opsOf g := by
  by_cases hok : g.Ok
  · exact ⟨hok, Except.ok.inj (h.symm.trans (cblas_ok hok))⟩
  · exfalso
    unfold cblasZgemm at h
    by_cases h1 : (g.lda ≥ 1 ∧ g.lda ≥ (if g.ta = .no then g.m else g.k))
    · rw [if_neg (not_not.2 h1)] at h
      by_cases h2 : (g.ldb ≥ 1 ∧ g.ldb ≥ (if g.tb = .no then g.k else g.n))
      · rw [if_neg (not_not.2 h2)] at h
        by_cases h3 : (g.ldc ≥ 1 ∧ g.ldc ≥ g.m)
        · rw [if_neg (not_not.2 h3)] at h
          rw [if_neg (fun h4 => hok ⟨h1, h2, h3, h4⟩)] at h
          cases h
        · rw [if_pos h3] at h; cases h
      · rw [if_pos h2] at h; cases h
    · rw [if_pos h1] at h; cases h

theorem collect_ok (gs : List (Gemm K)) (h : ∀ g ∈ gs, g.Ok) : collect gs = .ok (gs.flatMap opsOf) := by
  induction gs with
  | nil => rfl
  | cons g gs ih =>
    unfold collect
    rw [cblas_ok (h g (by simp)), ih (fun x hx => h x (by simp [hx]))]
    rfl

theorem flatMap_comm_perm {α β γ : Type} (l1 : List α) (l2 : List β) (f : α → β → List γ) :
    (l1.flatMap fun a => l2.flatMap (f a)).Perm (l2.flatMap fun b => l1.flatMap fun a => f a b) := by
  induction l1 with
  | nil => simp
  | cons a l1 ih =>
    simp only [List.flatMap_cons]
    refine (List.Perm.append_left _ ih).trans ?_
    exact List.flatMap_append_perm l2 (f a) (fun b => l1.flatMap fun a => f a b)

theorem range'_shift {β : Type} (a n : Nat) (f : Nat → List β) : (List.range' a n).flatMap f = (List.range n).flatMap fun t => f (a + t) := by
  rw [List.range'_eq_map_range, List.flatMap_map]

theorem opsOf_eq (g : Gemm K) : opsOf g = (List.range g.n).flatMap fun (j : Nat) => (List.range g.m).map fun (i : Nat) => (g.cOff + i + g.ldc * j, g.elem i j) := by
  unfold opsOf pairs
  rw [List.map_flatMap]
  simp only [List.map_map, Function.comp_def]

theorem launch_mem {n N : Nat} (hN : 0 < N) {r : Nat × Nat} (h : r ∈ Thr.launchArgs n N) : r.1 ≤ r.2 ∧ r.2 ≤ N := by
  unfold Thr.launchArgs at h
  obtain ⟨t, ht, rfl⟩ := List.mem_map.1 h
  have ht := List.mem_range.1 ht
  simp only [gt_iff_lt, hN, if_true]
  constructor
  · exact Nat.div_le_div_right (Nat.mul_le_mul_right _ (by omega))
  · have : (t+1) * N ≤ n * N := Nat.mul_le_mul_right _ (by omega)
    exact (Nat.div_le_div_right this).trans (by rw [Nat.mul_comm n N]; exact Nat.le_of_eq (Nat.mul_div_cancel _ (by omega)))

theorem elem_col (g : Gemm K) (h : ¬g.m > g.n) (r : Nat × Nat) (i a : Nat) : (zgemmSub g r).elem i a = g.elem i (r.1 + a) := by
  funext old
  unfold zgemmSub
  rw [if_neg h]
  simp only [Gemm.elem]
  congr 3
  apply List.map_congr_left
  intro l _
  congr 3
  unfold Op.addr
  split <;> push_cast <;> ring

theorem elem_row (g : Gemm K) (h : g.m > g.n) (r : Nat × Nat) (i a : Nat) : (zgemmSub g r).elem i a = g.elem (r.1 + i) a := by
  funext old
  unfold zgemmSub
  rw [if_pos h]
  simp only [Gemm.elem]
  congr 3
  apply List.map_congr_left
  intro l _
  congr 3
  unfold Op.addr
  split <;> push_cast <;> ring

omit [CommRing K] [StarRing K] in
theorem sub_ok {g : Gemm K} (hg : g.Ok) (hN : 0 < max g.m g.n) {n : Nat} {r : Nat × Nat} (hr : r ∈ Thr.launchArgs n (max g.m g.n)) :
    (zgemmSub g r).Ok := by
  obtain ⟨b1, b2⟩ := launch_mem hN hr
  obtain ⟨h1, h2, h3, h4⟩ := hg
  unfold zgemmSub
  by_cases h : g.m > g.n
  · rw [if_pos h]
    rw [max_eq_left (by omega)] at b2
    refine ⟨⟨h1.1, ?_⟩, h2, ⟨h3.1, by simp only; omega⟩, ?_⟩
    · have := h1.2
      simp only
      split at this <;> split <;> first | omega | contradiction
    · intro i hi j hj
      simp only at hi hj ⊢
      obtain ⟨q1, q2⟩ := h4 (r.1 + i) (by omega) j hj
      refine ⟨by push_cast at q1; convert q1 using 1; ring, fun l hl => ?_⟩
      obtain ⟨q3, q4⟩ := q2 l hl
      refine ⟨?_, q4⟩
      convert q3 using 1
      unfold Op.addr
      split <;> push_cast <;> ring
  · rw [if_neg h]
    rw [max_eq_right (by omega)] at b2
    refine ⟨h1, ⟨h2.1, ?_⟩, h3, ?_⟩
    · have := h2.2
      simp only
      split at this <;> split <;> first | omega | contradiction
    · intro i hi j hj
      simp only at hi hj ⊢
      obtain ⟨q1, q2⟩ := h4 i hi (r.1 + j) (by omega)
      refine ⟨by push_cast at q1; convert q1 using 1; ring, fun l hl => ?_⟩
      obtain ⟨q3, q4⟩ := q2 l hl
      refine ⟨q3, ?_⟩
      convert q4 using 1
      unfold Op.addr
      split <;> push_cast <;> ring

theorem split_perm (g : Gemm K) (n : Nat) (hn : 0 < n) (hN : 0 < max g.m g.n) :
    ((Thr.launchArgs n (max g.m g.n)).flatMap fun r => opsOf (zgemmSub g r)).Perm (opsOf g) := by
  have hcov := (Thr.C02_exact_cover_partial n (max g.m g.n) hn hN).2.2
  unfold Thr.threadedLoopCalls Thr.loopSub at hcov
  by_cases h : g.m > g.n
  · rw [max_eq_left (by omega)] at hcov ⊢
    have e : ∀ r : Nat × Nat, opsOf (zgemmSub g r) = (List.range g.n).flatMap fun (j : Nat) =>
        (List.range' r.1 (r.2 - r.1)).flatMap fun (i : Nat) => [(g.cOff + i + g.ldc * j, g.elem i j)] := by
      intro r
      rw [opsOf_eq]
      have en : (zgemmSub g r).n = g.n := by unfold zgemmSub; rw [if_pos h]
      have em : (zgemmSub g r).m = r.2 - r.1 := by unfold zgemmSub; rw [if_pos h]
      have ec : (zgemmSub g r).cOff = g.cOff + r.1 := by unfold zgemmSub; rw [if_pos h]
      have el : (zgemmSub g r).ldc = g.ldc := by unfold zgemmSub; rw [if_pos h]
      rw [en, em, ec, el]
      congr 1
      funext j
      rw [range'_shift, List.map_eq_flatMap]
      congr 1
      funext i
      rw [elem_row g h]
      congr 2
      push_cast
      ring
    simp only [e]
    refine (flatMap_comm_perm _ _ _).trans ?_
    rw [opsOf_eq]
    apply List.Perm.of_eq
    congr 1
    funext j
    rw [← List.flatMap_assoc, hcov, List.map_eq_flatMap]
  · rw [max_eq_right (by omega)] at hcov ⊢
    have e : ∀ r : Nat × Nat, opsOf (zgemmSub g r) = (List.range' r.1 (r.2 - r.1)).flatMap fun (j : Nat) =>
        (List.range g.m).map fun (i : Nat) => (g.cOff + i + g.ldc * j, g.elem i j) := by
      intro r
      rw [opsOf_eq]
      have en : (zgemmSub g r).n = r.2 - r.1 := by unfold zgemmSub; rw [if_neg h]
      have em : (zgemmSub g r).m = g.m := by unfold zgemmSub; rw [if_neg h]
      have ec : (zgemmSub g r).cOff = g.cOff + r.1 * g.ldc := by unfold zgemmSub; rw [if_neg h]
      have el : (zgemmSub g r).ldc = g.ldc := by unfold zgemmSub; rw [if_neg h]
      rw [en, em, ec, el, range'_shift]
      congr 1
      funext j
      apply List.map_congr_left
      intro i _
      rw [elem_col g h]
      congr 1
      push_cast
      ring
    simp only [e]
    rw [← List.flatMap_assoc, hcov, opsOf_eq]

theorem opsOf_nodup {g : Gemm K} (hg : g.Ok) : ((opsOf g).map Prod.fst).Nodup := by
  unfold opsOf
  rw [List.map_map]
  refine List.Nodup.map_on ?_ (pairs_nodup _ _)
  intro p hp q hq h
  have hp := mem_pairs.1 hp
  have hq := mem_pairs.1 hq
  have := hg.2.2.1
  simp only [Function.comp] at h
  have := addr_inj (ld := g.ldc) (i := p.2) (j := p.1) (i' := q.2) (j' := q.1) (by omega) (by omega) (by omega) (by omega) (by omega)
  exact Prod.ext (by omega) (by omega)

theorem opElem_val (o : Op) (f : Int → K) (off ld i j : Int) : o.val (f (off + o.addr ld i j)) = opElem o f off ld i j := by
  cases o <;> simp [Op.val, Op.addr, opElem, add_assoc]

theorem elem_eq (g : Gemm K) (i j : Nat) (old : K) : g.elem i j old =
    g.alpha * ∑ l ∈ Finset.range g.k, opElem g.ta g.A.f g.aOff g.lda i l * opElem g.tb g.B.f g.bOff g.ldb l j + g.beta * old := by
  unfold Gemm.elem
  simp only [opElem_val]
  congr 2

theorem gemm_of_perm {g : Gemm K} (hg : g.Ok) {σ : List (Upd K)} (h : σ.Perm (opsOf g)) (C : Int → K) : IsGemm g C (runUpd σ C) := by
  have hn : (σ.map Prod.fst).Nodup := (h.map Prod.fst).nodup_iff.2 (opsOf_nodup hg)
  obtain ⟨h1, h2⟩ := runUpd_nodup σ hn C
  constructor
  · intro i hi j hj
    have hm : ((g.cOff + i + g.ldc * j, g.elem i j) : Upd K) ∈ σ := by
      rw [h.mem_iff, opsOf]
      exact List.mem_map.2 ⟨(j, i), mem_pairs.2 ⟨hj, hi⟩, rfl⟩
    exact (h1 _ hm).trans (elem_eq g i j _)
  · intro x hx
    apply h2
    intro hmem
    rw [(h.map Prod.fst).mem_iff, opsOf, List.map_map] at hmem
    obtain ⟨p, hp, rfl⟩ := List.mem_map.1 hmem
    have hp := mem_pairs.1 hp
    exact hx p.2 hp.2 p.1 hp.1 rfl

/-- Whenever the undivided call is admissible, the division over any number of threads along the larger dimension is too, and
whatever the order in which the threads update the elements, the result is `alpha op(A) op(B) + beta C`, which is also that of
the undivided call. Partial: the result must not be empty (see `C52_empty_violation`). -/
theorem C52_zgemm_partial (g : Gemm K) (l : List (Upd K)) (h : cblasZgemm g = .ok l) (nThreads : Nat) (hn : 0 < nThreads)
    (hN : 0 < max g.m g.n) :
    ∃ ops, eblasZgemm nThreads g = .ok ops ∧ ∀ σ : List (Upd K), σ.Perm ops → ∀ C, IsGemm g C (runUpd σ C) ∧ runUpd σ C = runUpd l C := by
  obtain ⟨hg, rfl⟩ := ok_of_cblas h
  refine ⟨_, collect_ok _ ?_, ?_⟩
  · intro x hx
    obtain ⟨r, hr, rfl⟩ := List.mem_map.1 hx
    exact sub_ok hg hN hr
  · intro σ hσ C
    rw [List.flatMap_map] at hσ
    have hp := hσ.trans (split_perm g nThreads hn hN)
    have g1 := gemm_of_perm hg hp C
    refine ⟨g1, ?_⟩
    have g2 := gemm_of_perm hg (List.Perm.refl _) C
    funext x
    by_cases hx : ∀ i < g.m, ∀ j < g.n, x ≠ g.cOff + i + g.ldc * j
    · rw [g1.2 x hx, g2.2 x hx]
    · push Not at hx
      obtain ⟨i, hi, j, hj, rfl⟩ := hx
      rw [g1.1 i hi j hj, g2.1 i hi j hj]

/-- The same for the program run in the listed order, as used below. -/
theorem eblas_run {g : Gemm K} (hg : g.Ok) (nThreads : Nat) (hn : 0 < nThreads) (hN : 0 < max g.m g.n) :
    ∃ ops, eblasZgemm nThreads g = .ok ops ∧ ∀ C, IsGemm g C (runUpd ops C) := by
  obtain ⟨ops, h1, h2⟩ := C52_zgemm_partial g _ (cblas_ok hg) nThreads hn hN
  exact ⟨ops, h1, fun C => (h2 ops (List.Perm.refl _) C).1⟩

/-- Two threads on a 3x2 product with a conjugate-transposed first operand: the hypothesis of `C52_zgemm_partial` is met. -/
example : ∃ l, cblasZgemm ({
    ta := .conjTrans, tb := .no, m := 3, n := 2, k := 2, alpha := 2, A := ⟨6, fun x => x⟩, aOff := 0, lda := 2,
    B := ⟨4, fun x => x * x⟩, bOff := 0, ldb := 2, beta := 1, cSize := 6, cOff := 0, ldc := 3 } : Gemm Int) = .ok l :=
  ⟨_, cblas_ok (by unfold Gemm.Ok; refine ⟨by decide, by decide, by decide, by decide⟩)⟩

/-- For an empty result the ranges handed to the threads are not empty: with a transposed second operand and more threads than
its leading dimension, the program stops in BLAS although the undivided call does nothing. -/
theorem C52_empty_violation :
    let g : Gemm Int := {
      ta := .no, tb := .trans, m := 0, n := 0, k := 1, alpha := 1, A := ⟨1, fun _ => 1⟩, aOff := 0, lda := 1,
      B := ⟨1, fun _ => 1⟩, bOff := 0, ldb := 1, beta := 0, cSize := 0, cOff := 0, ldc := 1 }
    (∃ l, cblasZgemm g = .ok l) ∧ eblasZgemm 2 g = .error .die := by
  refine ⟨⟨_, cblas_ok ⟨by decide, by decide, by decide, by decide⟩⟩, ?_⟩
  unfold eblasZgemm
  simp only [Thr.launchArgs, List.range, List.range.loop, List.map_cons, List.map_nil, collect]
  rfl

/-! ## Products of scaled, transposed blocks -/

omit [CommRing K] [StarRing K] in
theorem MOp.bounds {a : MOp K} (h : a.Ok) {i l : Int} (hi : 0 ≤ i) (hi' : i < a.nRows) (hl : 0 ≤ l) (hl' : l < a.nCols) :
    Buf.Has (a.mat.nr * a.mat.nc) (a.index 0 0 + a.op.addr a.mat.nr i l) := by
  obtain ⟨h1, h2, h3, h4, h5, h6⟩ := h
  unfold MOp.nRows at hi'
  unfold MOp.nCols at hl'
  unfold MOp.index Op.addr M.index
  by_cases ho : a.op = .no
  · simp only [ho, if_true] at hi' hl' ⊢
    have := addr_has (nr := a.mat.nr) (nc := a.mat.nc) (i := a.iStart + i) (j := a.jStart + l) (by omega) (by omega) (by omega) (by omega)
    convert this using 1; ring
  · simp only [ho, if_false] at hi' hl' ⊢
    have := addr_has (nr := a.mat.nr) (nc := a.mat.nc) (i := a.iStart + l) (j := a.jStart + i) (by omega) (by omega) (by omega) (by omega)
    convert this using 1; ring

theorem MOp.elem_eq (a : MOp K) (i l : Int) : a.elem i l = a.scale * opElem a.op a.mat.f (a.index 0 0) a.mat.nr i l := by
  unfold MOp.elem MOp.index opElem entry M.index
  cases ho : a.op <;> simp only [reduceCtorEq, if_true, if_false]
  · rw [show a.mat.nr * (a.jStart + l) + (a.iStart + i) = a.mat.nr * (0 + a.jStart) + (0 + a.iStart) + i + a.mat.nr * l by ring]
  · rw [show a.mat.nr * (a.jStart + i) + (a.iStart + l) = a.mat.nr * (0 + a.jStart) + (0 + a.iStart) + l + a.mat.nr * i by ring]
  · rw [show a.mat.nr * (a.jStart + i) + (a.iStart + l) = a.mat.nr * (0 + a.jStart) + (0 + a.iStart) + l + a.mat.nr * i by ring]

/-- The product of two scaled, possibly transposed blocks has the right shape and entries, for any number of threads. -/
theorem C63_product (a b : MOp K) (ha : a.Ok) (hb : b.Ok) (hab : a.nCols = b.nRows) (nThreads : Nat) (hn : 0 < nThreads) (junk : Int → K) :
    ∃ r, mulOp nThreads junk a b = .ok r ∧ r.nr = a.nRows ∧ r.nc = b.nCols ∧
      ∀ i < r.nr.toNat, ∀ j < r.nc.toNat, entry r i j = ∑ l ∈ Finset.range a.nCols.toNat, a.elem i l * b.elem l j := by
  have pa : 0 < a.nRows ∧ 0 < a.nCols ∧ (if a.op = .no then a.nRows else a.nCols) ≤ a.mat.nr := by
    obtain ⟨h1, h2, h3, h4, h5, h6⟩ := ha
    unfold MOp.nRows MOp.nCols
    split <;> refine ⟨?_, ?_, ?_⟩ <;> omega
  have pb : 0 < b.nRows ∧ 0 < b.nCols ∧ (if b.op = .no then b.nRows else b.nCols) ≤ b.mat.nr := by
    obtain ⟨h1, h2, h3, h4, h5, h6⟩ := hb
    unfold MOp.nRows MOp.nCols
    split <;> refine ⟨?_, ?_, ?_⟩ <;> omega
  unfold mulOp
  rw [if_neg (not_not.2 hab)]
  simp only [fresh]
  have hg : ({
        ta := a.op, tb := b.op, m := a.nRows.toNat, n := b.nCols.toNat, k := a.nCols.toNat,
        alpha := a.scale * b.scale, A := ⟨a.mat.nr * a.mat.nc, a.mat.f⟩, aOff := a.index 0 0, lda := a.mat.nr,
        B := ⟨b.mat.nr * b.mat.nc, b.mat.f⟩, bOff := b.index 0 0, ldb := b.mat.nr,
        beta := 0, cSize := a.nRows * b.nCols, cOff := 0, ldc := a.nRows } : Gemm K).Ok := by
    refine ⟨⟨?_, ?_⟩, ⟨?_, ?_⟩, ⟨by simp only; omega, by simp only; omega⟩, ?_⟩
    · simp only; split at pa <;> omega
    · simp only; split at pa <;> rename_i h <;> simp only [h, if_true, if_false] <;> omega
    · simp only; split at pb <;> omega
    · simp only; split at pb <;> rename_i h <;> simp only [h, if_true, if_false] <;> omega
    · intro i hi j hj
      simp only at hi hj ⊢
      refine ⟨?_, ?_⟩
      · have := addr_has (nr := a.nRows) (nc := b.nCols) (i := i) (j := j) (by omega) (by omega) (by omega) (by omega)
        convert this using 1; ring
      · intro l hl
        exact ⟨MOp.bounds ha (by omega) (by omega) (by omega) (by omega), MOp.bounds hb (by omega) (by omega) (by omega) (by omega)⟩
  obtain ⟨ops, h1, h2⟩ := eblas_run hg nThreads hn (by simp only; omega)
  rw [h1]
  refine ⟨_, rfl, rfl, rfl, ?_⟩
  intro i hi j hj
  have := (h2 junk).1 i hi j hj
  simp only [zero_mul, add_zero, zero_add] at this
  simp only [entry]
  rw [Int.add_comm, this, Finset.mul_sum]
  refine Finset.sum_congr rfl fun l _ => ?_
  rw [MOp.elem_eq, MOp.elem_eq]
  ring

/-- Incompatible shapes are rejected. -/
theorem C63_rejects (a b : MOp K) (hab : a.nCols ≠ b.nRows) (nThreads : Nat) (junk : Int → K) : mulOp nThreads junk a b = .error .die := by
  unfold mulOp; rw [if_pos hab]

/-- The product of two blocks, each given by its first row and column and the row and column after its last. -/
theorem C63_block_product (A B : M K) (ai ai' aj aj' bi bi' bj bj' : Int) (s t : K)
    (hA : 0 ≤ ai ∧ ai < ai' ∧ ai' ≤ A.nr ∧ 0 ≤ aj ∧ aj < aj' ∧ aj' ≤ A.nc) (hB : 0 ≤ bi ∧ bi < bi' ∧ bi' ≤ B.nr ∧ 0 ≤ bj ∧ bj < bj' ∧ bj' ≤ B.nc)
    (hab : aj' - aj = bi' - bi) (nThreads : Nat) (hn : 0 < nThreads) (junk : Int → K) :
    ∃ r, mulOp nThreads junk (MOp.block A ai ai' aj aj' s) (MOp.block B bi bi' bj bj' t) = .ok r ∧ r.nr = ai' - ai ∧ r.nc = bj' - bj ∧
      ∀ i < (ai' - ai).toNat, ∀ j < (bj' - bj).toNat,
        entry r i j = ∑ l ∈ Finset.range (aj' - aj).toNat, s * entry A (ai + i) (aj + l) * (t * entry B (bi + l) (bj + j)) := by
  have oa : (MOp.block A ai ai' aj aj' s).Ok := by
    obtain ⟨h1, h2, h3, h4, h5, h6⟩ := hA
    unfold MOp.Ok MOp.block; refine ⟨?_, ?_, ?_, ?_, ?_, ?_⟩ <;> dsimp only <;> omega
  have ob : (MOp.block B bi bi' bj bj' t).Ok := by
    obtain ⟨h1, h2, h3, h4, h5, h6⟩ := hB
    unfold MOp.Ok MOp.block; refine ⟨?_, ?_, ?_, ?_, ?_, ?_⟩ <;> dsimp only <;> omega
  obtain ⟨r, h1, h2, h3, h4⟩ := C63_product _ _ oa ob (by simpa [MOp.nCols, MOp.nRows, MOp.block] using hab) nThreads hn junk
  have e2 : r.nr = ai' - ai := by rw [h2]; simp [MOp.nRows, MOp.block]
  have e3 : r.nc = bj' - bj := by rw [h3]; simp [MOp.nCols, MOp.block]
  refine ⟨r, h1, e2, e3, fun i hi j hj => ?_⟩
  rw [h4 i (by rw [e2]; exact hi) j (by rw [e3]; exact hj)]
  simp [MOp.nCols, MOp.block, MOp.elem]

/-- The adjoint of a block of a 3x2 matrix times that matrix: the hypotheses hold. -/
example : let m : M Int := ⟨3, 2, fun x => x⟩
    (MOp.mk m 2 1 2 0 2 .conjTrans).Ok ∧ (MOp.block m 0 2 0 2 1).Ok ∧ (MOp.mk m 2 1 2 0 2 .conjTrans).nCols = (MOp.block m 0 2 0 2 1).nRows := by
  refine ⟨?_, ?_, ?_⟩
  · unfold MOp.Ok; decide
  · unfold MOp.Ok; decide
  · decide

end Jdftx.Mtx
