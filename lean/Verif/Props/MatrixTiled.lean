import Verif.Props.MatrixMul

/-!
# Products with tiled block-diagonal matrices (C51)
-/
namespace Jdftx.Mtx
variable {K : Type} [CommRing K] [StarRing K]

omit [StarRing K] in
theorem sum_blocks (q nb : Nat) (f : Nat → K) :
    ∑ c ∈ Finset.range (nb * q), f c = ∑ b ∈ Finset.range nb, ∑ l ∈ Finset.range q, f (b * q + l) := by
  induction nb with
  | zero => simp
  | succ n ih => rw [Nat.succ_mul, Finset.sum_range_add, ih, Finset.sum_range_succ]

theorem div_mod_block {R b i : Nat} (hi : i < R) : ((b * R + i : Nat) : Int) / (R : Int) = b ∧ ((b * R + i : Nat) : Int) % (R : Int) = i := by
  constructor
  · rw [← Int.natCast_ediv, Nat.mul_comm, Nat.mul_add_div (by omega), Nat.div_eq_of_lt hi, Nat.add_zero]
  · rw [← Int.natCast_emod, Nat.mul_comm, Nat.mul_add_mod, Nat.mod_eq_of_lt hi]

omit [StarRing K] in
theorem tiled_block (blk : M K) (phase : Nat → K) {R C : Nat} (hR : blk.nr = R) (hC : blk.nc = C) {b c i l : Nat} (hi : i < R) (hl : l < C) :
    tiledEntry blk phase (b * R + i) (c * C + l) = if b = c then phase b * entry blk i l else 0 := by
  unfold tiledEntry
  rw [hR, hC, (div_mod_block hi).1, (div_mod_block hl).1, (div_mod_block hi).2, (div_mod_block hl).2, Int.toNat_natCast]
  by_cases h : b = c
  · rw [if_pos h, if_pos (by omega)]
  · rw [if_neg h, if_neg (by omega)]

omit [StarRing K] in
/-- Row of the expanded matrix times a vector. -/
theorem tiled_row (blk : M K) (phase : Nat → K) {R C : Nat} (hR : blk.nr = R) (hC : blk.nc = C) {nb b i : Nat} (hb : b < nb) (hi : i < R)
    (v : Nat → K) : ∑ c ∈ Finset.range (nb * C), tiledEntry blk phase (b * R + i) c * v c
      = phase b * ∑ l ∈ Finset.range C, entry blk i l * v (b * C + l) := by
  rw [sum_blocks, Finset.sum_eq_single b]
  · rw [Finset.mul_sum]
    refine Finset.sum_congr rfl fun l hl => ?_
    rw [tiled_block blk phase hR hC hi (Finset.mem_range.1 hl), if_pos rfl, mul_assoc]
  · intro c _ hne
    refine Finset.sum_eq_zero fun l hl => ?_
    rw [tiled_block blk phase hR hC hi (Finset.mem_range.1 hl), if_neg (Ne.symm hne), zero_mul]
  · intro h; exact absurd (Finset.mem_range.2 hb) h

omit [StarRing K] in
/-- A vector times a column of the expanded matrix. -/
theorem tiled_col (blk : M K) (phase : Nat → K) {R C : Nat} (hR : blk.nr = R) (hC : blk.nc = C) {nb b l : Nat} (hb : b < nb) (hl : l < C)
    (v : Nat → K) : ∑ r ∈ Finset.range (nb * R), v r * tiledEntry blk phase r (b * C + l)
      = phase b * ∑ i ∈ Finset.range R, v (b * R + i) * entry blk i l := by
  rw [sum_blocks, Finset.sum_eq_single b]
  · rw [Finset.mul_sum]
    refine Finset.sum_congr rfl fun i hi => ?_
    rw [tiled_block blk phase hR hC (Finset.mem_range.1 hi) hl, if_pos rfl]; ring
  · intro c _ hne
    refine Finset.sum_eq_zero fun i hi => ?_
    rw [tiled_block blk phase hR hC (Finset.mem_range.1 hi) hl, if_neg hne, mul_zero]
  · intro h; exact absurd (Finset.mem_range.2 hb) h

theorem mulTiledLoop_ok (nThreads : Nat) (hn : 0 < nThreads) (m blk : M K) (phase : Nat → K) (R C Q : Nat) (hR : blk.nr = R) (hC : blk.nc = C)
    (hQ : m.nr = Q) (pR : 0 < R) (pC : 0 < C) (pQ : 0 < Q) (nb : Nat) (hm : m.nc = (nb * R : Nat)) :
    ∀ (n b0 : Nat) (res : M K), res.nr = Q → res.nc = (nb * C : Nat) → b0 + n ≤ nb →
      ∃ r, mulTiledLoop nThreads m blk phase n b0 res = .ok r ∧ r.nr = Q ∧ r.nc = (nb * C : Nat) ∧
        (∀ i < Q, ∀ c < b0 * C, r.f (Q * c + i) = res.f (Q * c + i)) ∧
        ∀ b, b0 ≤ b → b < b0 + n → ∀ i < Q, ∀ l < C,
          r.f (Q * (b * C + l : Nat) + i) = phase b * ∑ k ∈ Finset.range R, entry m i (b * R + k : Nat) * entry blk k l
  | 0, b0, res, h1, h2, _ => ⟨res, rfl, h1, h2, fun _ _ _ _ => rfl, fun b h h' => absurd h' (by omega)⟩
  | n+1, b0, res, h1, h2, h3 => by
    have hbR : b0 * R + R ≤ nb * R := by
      have : (b0 + 1) * R ≤ nb * R := Nat.mul_le_mul_right _ (by omega)
      rwa [Nat.succ_mul] at this
    have hbC : b0 * C + C ≤ nb * C := by
      have : (b0 + 1) * C ≤ nb * C := Nat.mul_le_mul_right _ (by omega)
      rwa [Nat.succ_mul] at this
    have hg : ({
        ta := .no, tb := .no, m := m.nr.toNat, n := blk.nc.toNat, k := blk.nr.toNat,
        alpha := phase b0, A := ⟨m.nr * m.nc, m.f⟩, aOff := (b0 : Int) * blk.nr * m.nr, lda := m.nr,
        B := ⟨blk.nr * blk.nc, blk.f⟩, bOff := 0, ldb := blk.nr,
        beta := 0, cSize := res.nr * res.nc, cOff := (b0 : Int) * blk.nc * m.nr, ldc := res.nr } : Gemm K).Ok := by
      simp only [hR, hC, hQ, hm, h1, h2, Int.toNat_natCast]
      refine ⟨⟨by simp only; omega, by simp only [if_true]; omega⟩, ⟨by simp only; omega, by simp only [if_true]; omega⟩,
        ⟨by simp only; omega, by simp only; omega⟩, ?_⟩
      intro i hi j hj
      simp only at hi hj ⊢
      refine ⟨?_, fun k hk => ⟨?_, ?_⟩⟩
      · have := addr_has (nr := Q) (nc := (nb * C : Nat)) (i := i) (j := (b0 * C + j : Nat)) (by omega) (by omega) (by omega) (by omega)
        convert this using 1; push_cast; ring
      · have := addr_has (nr := Q) (nc := (nb * R : Nat)) (i := i) (j := (b0 * R + k : Nat)) (by omega) (by omega) (by omega) (by omega)
        convert this using 1; simp only [Op.addr, if_true]; push_cast; ring
      · have := addr_has (nr := R) (nc := C) (i := k) (j := j) (by omega) (by omega) (by omega) (by omega)
        convert this using 1; simp only [Op.addr, if_true]; ring
    obtain ⟨ops, e1, e2⟩ := eblas_run hg nThreads hn (by simp only [hQ, Int.toNat_natCast]; omega)
    obtain ⟨r, g1, g2, g3, g4, g5⟩ := mulTiledLoop_ok nThreads hn m blk phase R C Q hR hC hQ pR pC pQ nb hm n (b0 + 1)
      { res with f := runUpd ops res.f } h1 h2 (by omega)
    obtain ⟨e3, e4⟩ := e2 res.f
    refine ⟨r, ?_, g2, g3, ?_, ?_⟩
    · unfold mulTiledLoop
      simp only [e1]
      exact g1
    · intro i hi c hc
      rw [g4 i hi c (by rw [Nat.succ_mul]; omega)]
      refine e4 _ ?_
      simp only [hR, hC, hQ, h1, Int.toNat_natCast]
      intro i' hi' j' hj' he
      have := addr_inj (ld := Q) (i := i) (j := c) (i' := i') (j' := (b0 * C + j' : Nat)) (by omega) (by omega) (by omega) (by omega)
        (by push_cast; linarith)
      omega
    · intro b hb hb' i hi l hl
      by_cases h : b = b0
      · subst h
        rw [g4 i hi _ (by rw [Nat.succ_mul]; omega)]
        have := e3 i (by simp only [hQ, Int.toNat_natCast]; exact hi) l (by simp only [hC, Int.toNat_natCast]; exact hl)
        simp only [hR, hC, hQ, h1, Int.toNat_natCast, zero_mul, add_zero] at this
        rw [show (Q : Int) * (b * C + l : Nat) + i = (b : Int) * C * Q + i + Q * l by push_cast; ring]
        refine this.trans ?_
        congr 1
        refine Finset.sum_congr rfl fun k _ => ?_
        simp only [opElem, entry, hQ, hR]
        congr 2 <;> push_cast <;> ring
      · exact g5 b (by omega) (by omega) i hi l hl

/-- The product of a matrix with a tiled block-diagonal matrix on the right equals the product with the expanded matrix. -/
theorem C51_right (nThreads : Nat) (hn : 0 < nThreads) (junk : Int → K) (m blk : M K) (nb : Nat) (phase : Nat → K)
    (h1 : 0 < blk.nr) (h2 : 0 < blk.nc) (h3 : 0 < m.nr) (hm : m.nc = blk.nr * nb) :
    ∃ r, mulTiled nThreads junk m blk nb phase = .ok r ∧ r.nr = m.nr ∧ r.nc = blk.nc * nb ∧
      ∀ i < r.nr.toNat, ∀ c < r.nc.toNat, entry r i c = ∑ k ∈ Finset.range m.nc.toNat, entry m i k * tiledEntry blk phase k c := by
  obtain ⟨R, hR⟩ := Int.eq_ofNat_of_zero_le h1.le
  obtain ⟨C, hC⟩ := Int.eq_ofNat_of_zero_le h2.le
  obtain ⟨Q, hQ⟩ := Int.eq_ofNat_of_zero_le h3.le
  have hm' : m.nc = (nb * R : Nat) := by rw [hm, hR]; push_cast; ring
  obtain ⟨r, g1, g2, g3, _, g5⟩ := mulTiledLoop_ok nThreads hn m blk phase R C Q hR hC hQ (by omega) (by omega) (by omega) nb hm' nb 0
    (fresh junk m.nr (blk.nc * nb)) hQ (by simp only [fresh, hC]; push_cast; ring) (by omega)
  refine ⟨r, ?_, by rw [g2, hQ], by rw [g3, hC]; push_cast; ring, ?_⟩
  · unfold mulTiled
    rw [if_neg (not_not.2 hm)]
    exact g1
  · intro i hi c hc
    rw [g2, Int.toNat_natCast] at hi
    rw [g3, Int.toNat_natCast] at hc
    have pC : 0 < C := by omega
    have hb : c / C < nb := Nat.div_lt_of_lt_mul (by rwa [Nat.mul_comm])
    have hl : c % C < C := Nat.mod_lt _ pC
    have hc' : c / C * C + c % C = c := Nat.div_add_mod' c C
    have := g5 (c / C) (Nat.zero_le _) (by omega) i hi (c % C) hl
    rw [hc'] at this
    rw [hm', Int.toNat_natCast]
    have ht := tiled_col blk phase hR hC hb hl (fun k => entry m i k)
    rw [hc'] at ht
    rw [ht]
    simp only [entry, g2] at this ⊢
    exact this

theorem tiledMulLoop_ok (nThreads : Nat) (hn : 0 < nThreads) (blk other : M K) (phase : Nat → K) (R Q : Nat) (hR : blk.nr = R) (hC : blk.nc = R)
    (hQ : other.nc = Q) (pR : 0 < R) (pQ : 0 < Q) (nb : Nat) (ho : other.nr = (nb * R : Nat)) :
    ∀ (n b0 : Nat) (res : M K), res.nr = (nb * R : Nat) → res.nc = Q → b0 + n ≤ nb →
      ∃ r, tiledMulLoop nThreads blk phase other n b0 res = .ok r ∧ r.nr = (nb * R : Nat) ∧ r.nc = Q ∧
        (∀ i < b0 * R, ∀ c < Q, r.f ((nb * R : Nat) * c + i) = res.f ((nb * R : Nat) * c + i)) ∧
        ∀ b, b0 ≤ b → b < b0 + n → ∀ i < R, ∀ c < Q,
          r.f ((nb * R : Nat) * c + (b * R + i : Nat)) = phase b * ∑ k ∈ Finset.range R, entry blk i k * entry other (b * R + k : Nat) c
  | 0, b0, res, h1, h2, _ => ⟨res, rfl, h1, h2, fun _ _ _ _ => rfl, fun b h h' => absurd h' (by omega)⟩
  | n+1, b0, res, h1, h2, h3 => by
    have hbR : b0 * R + R ≤ nb * R := by
      have : (b0 + 1) * R ≤ nb * R := Nat.mul_le_mul_right _ (by omega)
      rwa [Nat.succ_mul] at this
    have hg : ({
        ta := .no, tb := .no, m := blk.nr.toNat, n := other.nc.toNat, k := blk.nc.toNat,
        alpha := phase b0, A := ⟨blk.nr * blk.nc, blk.f⟩, aOff := 0, lda := blk.nr,
        B := ⟨other.nr * other.nc, other.f⟩, bOff := (b0 : Int) * blk.nc, ldb := other.nr,
        beta := 0, cSize := res.nr * res.nc, cOff := (b0 : Int) * blk.nc, ldc := res.nr } : Gemm K).Ok := by
      simp only [hR, hC, hQ, ho, h1, h2, Int.toNat_natCast]
      refine ⟨⟨by simp only; omega, by simp only [if_true]; omega⟩, ⟨by simp only; omega, by simp only [if_true]; omega⟩,
        ⟨by simp only; omega, by simp only; omega⟩, ?_⟩
      intro i hi j hj
      simp only at hi hj ⊢
      refine ⟨?_, fun k hk => ⟨?_, ?_⟩⟩
      · have := addr_has (nr := (nb * R : Nat)) (nc := Q) (i := (b0 * R + i : Nat)) (j := j) (by omega) (by omega) (by omega) (by omega)
        convert this using 1; push_cast; ring
      · have := addr_has (nr := R) (nc := R) (i := i) (j := k) (by omega) (by omega) (by omega) (by omega)
        convert this using 1; simp only [Op.addr, if_true]; ring
      · have := addr_has (nr := (nb * R : Nat)) (nc := Q) (i := (b0 * R + k : Nat)) (j := j) (by omega) (by omega) (by omega) (by omega)
        convert this using 1; simp only [Op.addr, if_true]; push_cast; ring
    obtain ⟨ops, e1, e2⟩ := eblas_run hg nThreads hn (by simp only [hQ, Int.toNat_natCast]; omega)
    obtain ⟨r, g1, g2, g3, g4, g5⟩ := tiledMulLoop_ok nThreads hn blk other phase R Q hR hC hQ pR pQ nb ho n (b0 + 1)
      { res with f := runUpd ops res.f } h1 h2 (by omega)
    obtain ⟨e3, e4⟩ := e2 res.f
    refine ⟨r, ?_, g2, g3, ?_, ?_⟩
    · unfold tiledMulLoop
      simp only [e1]
      exact g1
    · intro i hi c hc
      rw [g4 i (by rw [Nat.succ_mul]; omega) c hc]
      refine e4 _ ?_
      simp only [hR, hC, hQ, h1, Int.toNat_natCast]
      intro i' hi' j' hj' he
      have := addr_inj (ld := (nb * R : Nat)) (i := i) (j := c) (i' := (b0 * R + i' : Nat)) (j' := j') (by omega) (by omega) (by omega) (by omega)
        (he.trans (by push_cast; ring))
      omega
    · intro b hb hb' i hi c hc
      by_cases h : b = b0
      · subst h
        rw [g4 _ (by rw [Nat.succ_mul]; omega) c hc]
        have := e3 i (by simp only [hR, Int.toNat_natCast]; exact hi) c (by simp only [hQ, Int.toNat_natCast]; exact hc)
        simp only [hR, hC, hQ, h1, Int.toNat_natCast, zero_mul, add_zero] at this
        rw [show ((nb * R : Nat) : Int) * c + (b * R + i : Nat) = (b : Int) * R + i + (nb * R : Nat) * c by push_cast; ring]
        refine this.trans ?_
        congr 1
        refine Finset.sum_congr rfl fun k _ => ?_
        simp only [opElem, entry, ho, hR]
        congr 2 <;> push_cast <;> ring
      · exact g5 b (by omega) (by omega) i hi c hc

/-- With a tiled block-diagonal matrix on the left. Partial: the blocks must be square (see `C51_tall_violation`,
`C51_wide_violation`). -/
theorem C51_left_partial (nThreads : Nat) (hn : 0 < nThreads) (junk : Int → K) (blk other : M K) (nb : Nat) (phase : Nat → K)
    (h1 : 0 < blk.nr) (hsq : blk.nc = blk.nr) (h3 : 0 < other.nc) (ho : other.nr = blk.nc * nb) :
    ∃ r, tiledMul nThreads junk blk nb phase other = .ok r ∧ r.nr = blk.nr * nb ∧ r.nc = other.nc ∧
      ∀ i < r.nr.toNat, ∀ c < r.nc.toNat, entry r i c = ∑ k ∈ Finset.range other.nr.toNat, tiledEntry blk phase i k * entry other k c := by
  obtain ⟨R, hR⟩ := Int.eq_ofNat_of_zero_le h1.le
  have hC : blk.nc = R := hsq.trans hR
  obtain ⟨Q, hQ⟩ := Int.eq_ofNat_of_zero_le h3.le
  have ho' : other.nr = (nb * R : Nat) := by rw [ho, hC]; push_cast; ring
  obtain ⟨r, g1, g2, g3, _, g5⟩ := tiledMulLoop_ok nThreads hn blk other phase R Q hR hC hQ (by omega) (by omega) nb ho' nb 0
    (fresh junk (blk.nr * nb) other.nc) (by simp only [fresh, hR]; push_cast; ring) hQ (by omega)
  refine ⟨r, ?_, by rw [g2, hR]; push_cast; ring, by rw [g3, hQ], ?_⟩
  · unfold tiledMul
    rw [if_neg (not_not.2 ho.symm)]
    exact g1
  · intro i hi c hc
    rw [g2, Int.toNat_natCast] at hi
    rw [g3, Int.toNat_natCast] at hc
    have pC : 0 < R := by omega
    have hb : i / R < nb := Nat.div_lt_of_lt_mul (by rwa [Nat.mul_comm])
    have hl : i % R < R := Nat.mod_lt _ pC
    have hc' : i / R * R + i % R = i := Nat.div_add_mod' i R
    have := g5 (i / R) (Nat.zero_le _) (by omega) (i % R) hl c hc
    rw [hc'] at this
    rw [ho', Int.toNat_natCast]
    have ht := tiled_row blk phase hR hC hb hl (fun k => entry other k c)
    rw [hc'] at ht
    rw [ht]
    simp only [entry, g2] at this ⊢
    exact this

/-- Two 2x2 blocks times a 4x3 matrix. -/
example : let blk : M Int := ⟨2, 2, fun x => x⟩
    let other : M Int := ⟨4, 3, fun x => x⟩
    0 < blk.nr ∧ blk.nc = blk.nr ∧ 0 < other.nc ∧ other.nr = blk.nc * (2 : Nat) := by decide

/-- A 3x4 matrix times two 2x1 blocks. -/
example : let blk : M Int := ⟨2, 1, fun x => x⟩
    let m : M Int := ⟨3, 4, fun x => x⟩
    0 < blk.nr ∧ 0 < blk.nc ∧ 0 < m.nr ∧ m.nc = blk.nr * (2 : Nat) := by decide

/-- Shapes that do not fit are rejected. -/
theorem C51_rejects (nThreads : Nat) (junk : Int → K) (blk m : M K) (nb : Nat) (phase : Nat → K) :
    (m.nr ≠ blk.nc * nb → tiledMul nThreads junk blk nb phase m = .error .die) ∧
    (m.nc ≠ blk.nr * nb → mulTiled nThreads junk m blk nb phase = .error .die) := by
  constructor
  · intro h; unfold tiledMul; rw [if_pos (Ne.symm h)]
  · intro h; unfold mulTiled; rw [if_pos h]

/-- Two 2x1 blocks of ones times a 2x1 column of ones: the last of the four results is never written. -/
theorem C51_tall_violation (junk : Int → Int) :
    let blk : M Int := ⟨2, 1, fun _ => 1⟩
    let other : M Int := ⟨2, 1, fun _ => 1⟩
    ∃ r, tiledMul 1 junk blk 2 (fun _ => 1) other = .ok r ∧ entry r 3 0 = junk 3 := by
  intro blk other
  refine ⟨(match tiledMul 1 junk blk 2 (fun _ => 1) other with
    | .ok r => r
    | .error _ => ⟨0, 0, junk⟩), ?_, ?_⟩ <;> with_unfolding_all rfl

/-- Two 1x2 blocks times a 4x1 column: the second block is written beyond the end of the 2x1 result. -/
theorem C51_wide_violation (junk : Int → Int) :
    let blk : M Int := ⟨1, 2, fun _ => 1⟩
    let other : M Int := ⟨4, 1, fun _ => 1⟩
    tiledMul 1 junk blk 2 (fun _ => 1) other = .error .ub := by
  with_unfolding_all rfl

end Jdftx.Mtx
