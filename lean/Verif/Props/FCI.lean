import Verif.Lemmas.FCI

/-! # Property C110: matrix elements for configuration interaction -/
set_option linter.unusedSectionVars false
namespace Jdftx.FCI
open Jdftx.M3
open scoped ComplexConjugate
noncomputable section

variable {G R : Type} [Fintype R] {nSp : ℕ} (c : Calc G R nSp)

theorem nodup_key {α β : Type} {l : List α} {f : α → List β} (g : β → α) (hl : l.Nodup) (hg : ∀ x ∈ l, ∀ y ∈ f x, g y = x) (hf : ∀ x ∈ l, (f x).Nodup) : (l.flatMap f).Nodup := by
  rw [List.nodup_flatMap]
  refine ⟨hf, ?_⟩
  refine List.Pairwise.imp_of_mem ?_ hl
  intro a b ha hb hab
  simp only [Function.onFun]
  intro y h1 h2
  exact hab ((hg a ha y h1).symm.trans (hg b hb y h2))

theorem quads_nodup : c.quads.Nodup := by
  unfold Calc.quads
  refine nodup_key Quad.q1 List.nodup_range (fun q1 _ y hy => ?_) fun q1 _ => ?_
  · simp only [List.mem_flatMap, List.mem_map] at hy
    obtain ⟨_, _, _, _, _, _, rfl⟩ := hy
    rfl
  refine nodup_key Quad.q2 (List.nodup_range.filter _) (fun q2 _ y hy => ?_) fun q2 _ => ?_
  · simp only [List.mem_flatMap, List.mem_map] at hy
    obtain ⟨_, _, _, _, rfl⟩ := hy
    rfl
  refine nodup_key Quad.q3 List.nodup_range (fun q3 _ y hy => ?_) fun q3 _ => ?_
  · simp only [List.mem_map] at hy
    obtain ⟨_, _, rfl⟩ := hy
    rfl
  exact (List.nodup_range.filter _).map fun a b h => by simpa using congrArg Quad.q4 h

theorem mem_quads (q : Quad) : q ∈ c.quads ↔ q.q1 < c.nStates ∧ q.q2 ≤ q.q1 ∧ q.q3 < c.nStates ∧ q.q4 ≤ q.q3 ∧ c.spin q.q1 = c.spin q.q2 ∧ c.spin q.q3 = c.spin q.q4 ∧
    PL.circDistanceSquared (c.dk q.q1 q.q2) (c.dk q.q3 q.q4) ≤ c.thrSq := by
  unfold Calc.quads
  simp only [List.mem_flatMap, List.mem_map, List.mem_range, List.mem_filter, decide_eq_true_eq, Bool.and_eq_true, not_lt, Nat.lt_succ_iff]
  constructor
  · rintro ⟨q1, h1, q2, ⟨h2, h3⟩, q3, h4, q4, ⟨h5, h6, h7⟩, rfl⟩
    exact ⟨h1, h2, h4, h5, h3, h6, by simpa using h7⟩
  · rintro ⟨h1, h2, h3, h4, h5, h6, h7⟩
    exact ⟨q.q1, h1, q.q2, ⟨h2, h5⟩, q.q3, h3, q.q4, ⟨h4, h6, by simpa using h7⟩, rfl⟩

theorem elements_eq (P : ℕ) (hP : 0 < P) : c.elements P = c.quads.flatMap fun q => (List.range (c.total q)).map fun p => (q, c.first q p) := by
  unfold Calc.elements
  congr 1
  funext q
  rw [show ((List.range P).flatMap fun p => (c.process q P p).map fun t => (q, t)) = ((List.range P).flatMap (c.process q P)).map fun t => (q, t) from by rw [List.map_flatMap], processes_eq q P hP, List.map_map]
  rfl

theorem valid_ordered (q1 q2 i1 i2 : ℕ) (hq : q2 ≤ q1) : Valid (q1 == q2) c.nBands i1 i2 ↔ i1 < c.nBands ∧ i2 < c.nBands ∧ Ordered ⟨q1, i1⟩ ⟨q2, i2⟩ := by
  unfold Valid lim Ordered
  by_cases h : q1 = q2
  · subst h
    simp only [beq_self_eq_true, if_true, lt_irrefl, false_or, true_and]
    omega
  · have h' : (q1 == q2) = false := by simpa using h
    have hlt : q2 < q1 := by omega
    simp [h', hlt]

theorem coulomb_eq {q : Quad} {t : St G R nSp} (h : Sync c q t) : element t = c.coulomb ⟨q.q1, t.i1⟩ ⟨q.q2, t.i2⟩ ⟨q.q3, t.i3⟩ ⟨q.q4, t.i4⟩ := by
  have hp : ∀ (a b : Orb) (dk : V3 ℝ), c.nPair (fun s r => conj (c.psi a.q a.i s r)) b.q b.i dk = c.fft (c.pair a b dk) := by
    intro a b dk
    unfold Calc.nPair Calc.pair
    simp only
    congr 1
    funext r
    simp only [pow_two]
    by_cases hd : dk 0 * dk 0 + dk 1 * dk 1 + dk 2 * dk 2 > c.thrSq
    · simp only [hd, if_true]
    · simp only [hd, if_false, mul_one]
  unfold element Calc.coulomb
  rw [h.Kn12, h.n34]
  refine Finset.sum_congr rfl fun x _ => ?_
  congr 1
  · exact congrArg (fun z => conj (c.coul (c.dk q.q1 q.q2) z x)) (hp ⟨q.q1, t.i1⟩ ⟨q.q2, t.i2⟩ 0)
  · exact congrFun (hp ⟨q.q3, t.i3⟩ ⟨q.q4, t.i4⟩ _) x

/-- **C110 (elements).** Whatever the number of processes, the loop visits each combination of four orbitals exactly once, where both pairs are ordered, have the same spin and conserve wave vectors, and the value is
the Coulomb integral of these four orbitals. -/
theorem C110_elements (P : ℕ) (hP : 0 < P) :
    ((c.elements P).map orbs).Nodup ∧ (∀ a b d e, (a, b, d, e) ∈ (c.elements P).map orbs ↔ c.Wanted a b d e) ∧
      ∀ x ∈ c.elements P, element x.2 = c.coulomb (orbs x).1 (orbs x).2.1 (orbs x).2.2.1 (orbs x).2.2.2 := by
  rw [elements_eq c P hP]
  refine ⟨?_, ?_, ?_⟩
  · rw [List.map_flatMap]
    refine nodup_key (fun y => ⟨y.1.q, y.2.1.q, y.2.2.1.q, y.2.2.2.q⟩) (quads_nodup c) (fun q _ y hy => ?_) fun q _ => ?_
    · simp only [List.mem_map] at hy
      obtain ⟨_, ⟨_, _, rfl⟩, rfl⟩ := hy
      rfl
    · rw [List.map_map]
      refine List.nodup_range.map_on fun p hp p' hp' h => ?_
      have a := first_at (c := c) (q := q) (List.mem_range.1 hp)
      have a' := first_at (c := c) (q := q) (List.mem_range.1 hp')
      simp only [Function.comp_apply, orbs, Prod.mk.injEq, Orb.mk.injEq, true_and] at h
      rw [← a.pos, ← a'.pos, h.1, h.2.1, h.2.2.1, h.2.2.2]
  · intro a b d e
    simp only [List.mem_map, List.mem_flatMap, List.mem_range]
    constructor
    · rintro ⟨_, ⟨q, hq, p, hp, rfl⟩, he⟩
      obtain ⟨h1, h2, h3, h4, h5, h6, h7⟩ := (mem_quads c q).1 hq
      have t := first_at (c := c) hp
      obtain ⟨x1, x2, x3⟩ := (valid_ordered c _ _ _ _ h2).1 t.v12
      obtain ⟨y1, y2, y3⟩ := (valid_ordered c _ _ _ _ h4).1 t.v34
      simp only [orbs, Prod.mk.injEq] at he
      obtain ⟨rfl, rfl, rfl, rfl⟩ := he
      exact ⟨⟨h1, x1⟩, ⟨by simp only; omega, x2⟩, ⟨h3, y1⟩, ⟨by simp only; omega, y2⟩, x3, y3, h5, h6, h7⟩
    · rintro ⟨ha, hb, hd, he, o1, o2, s1, s2, hk⟩
      have q2 : b.q ≤ a.q := by rcases o1 with h | h <;> omega
      have q4 : e.q ≤ d.q := by rcases o2 with h | h <;> omega
      let q : Quad := ⟨a.q, b.q, d.q, e.q⟩
      have v12 : Valid (q.q1 == q.q2) c.nBands a.i b.i := (valid_ordered c _ _ _ _ q2).2 ⟨ha.2, hb.2, o1⟩
      have v34 : Valid (q.q3 == q.q4) c.nBands d.i e.i := (valid_ordered c _ _ _ _ q4).2 ⟨hd.2, he.2, o2⟩
      let p := idx (q.q1 == q.q2) c.nBands a.i b.i * count (q.q3 == q.q4) c.nBands + idx (q.q3 == q.q4) c.nBands d.i e.i
      have hp : p < c.total q := by
        have l1 := idx_lt v12
        have l2 := idx_lt v34
        calc p < idx (q.q1 == q.q2) c.nBands a.i b.i * count (q.q3 == q.q4) c.nBands + count (q.q3 == q.q4) c.nBands := Nat.add_lt_add_left l2 _
          _ = (idx (q.q1 == q.q2) c.nBands a.i b.i + 1) * count (q.q3 == q.q4) c.nBands := by ring
          _ ≤ _ := Nat.mul_le_mul_right _ l1
      let t : St G R nSp := c.upd34 q (c.upd3 q (c.upd12 q (c.upd1 q ⟨a.i, b.i, d.i, e.i, fun _ _ => 0, fun _ => 0, fun _ _ => 0, fun _ => 0⟩)))
      have ht : At c q p t := ⟨v12, v34, rfl, ⟨rfl, rfl, rfl, rfl⟩⟩
      have hf : c.first q p = t := (first_at hp).unique ht
      refine ⟨(q, c.first q p), ⟨q, (mem_quads c q).2 ⟨ha.1, q2, hd.1, q4, s1, s2, hk⟩, p, hp, rfl⟩, ?_⟩
      rw [hf]
      rfl
  · intro x hx
    simp only [List.mem_map, List.mem_flatMap, List.mem_range] at hx
    obtain ⟨q, _, p, hp, rfl⟩ := hx
    exact coulomb_eq c (first_at hp).sync

/-- **C110 (lines).** The lines with two particles in the file are exactly those of the wanted elements above the threshold. -/
theorem C110_lines (P : ℕ) (hP : 0 < P) (l : Line) :
    l ∈ c.twoLines P ↔ ∃ a b d e, c.Wanted a b d e ∧ printed (c.coulomb a b d e) = some l.value ∧ l.n1 = c.number a ∧ l.n2 = c.number b ∧ l.n3 = c.number d ∧ l.n4 = c.number e := by
  obtain ⟨-, h2, h3⟩ := C110_elements c P hP
  unfold Calc.twoLines
  rw [List.mem_filterMap]
  constructor
  · rintro ⟨x, hx, hl⟩
    refine ⟨_, _, _, _, (h2 _ _ _ _).1 (List.mem_map_of_mem hx), ?_⟩
    have h := h3 x hx
    simp only [orbs] at h
    rw [← h]
    unfold Calc.line at hl
    rw [Option.map_eq_some_iff] at hl
    obtain ⟨v, hv, rfl⟩ := hl
    exact ⟨hv, rfl, rfl, rfl, rfl⟩
  · rintro ⟨a, b, d, e, hw, hv, e1, e2, e3, e4⟩
    obtain ⟨x, hx, he⟩ := List.mem_map.1 ((h2 a b d e).2 hw)
    refine ⟨x, hx, ?_⟩
    have h := h3 x hx
    rw [he] at h
    unfold Calc.line
    rw [h, hv]
    simp only [orbs, Prod.mk.injEq] at he
    obtain ⟨rfl, rfl, rfl, rfl⟩ := he
    obtain ⟨v, n1, n2, n3, n4⟩ := l
    simp only at e1 e2 e3 e4
    rw [Option.map_some, e1, e2, e3, e4]
    rfl

/-- **C110 (processes).** The text does not depend on the number of processes. -/
theorem C110_processes (P P' : ℕ) (hP : 0 < P) (hP' : 0 < P') : c.twoLines P = c.twoLines P' := by
  unfold Calc.twoLines
  rw [elements_eq c P hP, elements_eq c P' hP']

/-- **C110 (threshold).** What is not written is at most the threshold; what is written differs from the element by at most the threshold. -/
theorem C110_threshold (K : ℂ) : (printed K = none ↔ ‖K‖ ≤ 1e-8) ∧ ∀ v, printed K = some v → ‖v - K‖ ≤ 1e-8 := by
  unfold printed Kcut
  constructor
  · split
    · rename_i h
      constructor
      · split <;> intro h' <;> cases h'
      · intro h'; linarith
    · rename_i h
      exact ⟨fun _ => not_lt.1 h, fun _ => rfl⟩
  · intro v hv
    split at hv
    · split at hv
      · cases hv
        rw [sub_self, norm_zero]
        norm_num
      · rename_i h
        cases hv
        have : ((K.re : ℂ) - K) = -(K.im * Complex.I) := by
          apply Complex.ext <;> simp
        rw [this, norm_neg, norm_mul, Complex.norm_I, mul_one, Complex.norm_real, Real.norm_eq_abs]
        exact not_lt.1 h
    · cases hv

/-- **C110 (numbers).** The orbitals are numbered from one to their total without gaps or repetitions. -/
theorem C110_numbers : (∀ a b, c.Has a → c.Has b → c.number a = c.number b → a = b) ∧ ∀ n, (1 ≤ n ∧ n ≤ c.nBands * c.nStates) ↔ ∃ a, c.Has a ∧ c.number a = n := by
  constructor
  · rintro ⟨q, i⟩ ⟨q', i'⟩ ⟨h1, -⟩ ⟨h2, -⟩ h
    simp only [Calc.number] at h h1 h2
    have e : i * c.nStates + q = i' * c.nStates + q' := by omega
    have hN : 0 < c.nStates := by omega
    have hi : i = i' := by
      have a1 : (i * c.nStates + q) / c.nStates = i := by rw [Nat.mul_comm, Nat.mul_add_div hN, Nat.div_eq_of_lt h1, add_zero]
      have a2 : (i' * c.nStates + q') / c.nStates = i' := by rw [Nat.mul_comm, Nat.mul_add_div hN, Nat.div_eq_of_lt h2, add_zero]
      rw [← a1, e, a2]
    subst hi
    rw [show q = q' from by omega]
  · intro n
    constructor
    · rintro ⟨h1, h2⟩
      have hN : 0 < c.nStates := by
        rcases Nat.eq_zero_or_pos c.nStates with h0 | h0
        · rw [h0] at h2; omega
        · exact h0
      refine ⟨⟨(n - 1) % c.nStates, (n - 1) / c.nStates⟩, ⟨Nat.mod_lt _ hN, Nat.div_lt_of_lt_mul (by rw [Nat.mul_comm]; omega)⟩, ?_⟩
      have := Nat.div_add_mod (n - 1) c.nStates
      show (n - 1) / c.nStates * c.nStates + (n - 1) % c.nStates + 1 = n
      rw [Nat.mul_comm]
      omega
    · rintro ⟨⟨q, i⟩, ⟨h1, h2⟩, rfl⟩
      simp only [Calc.number] at *
      have : (i + 1) * c.nStates ≤ c.nBands * c.nStates := Nat.mul_le_mul_right _ h2
      rw [add_mul, one_mul] at this
      omega

/-- **C110 (pairs).** Of two different orbitals exactly one order is used, and an orbital is paired with itself. -/
theorem C110_pairs (a b : Orb) : Ordered a a ∧ (a ≠ b → (Ordered a b ↔ ¬ Ordered b a)) := by
  obtain ⟨q, i⟩ := a
  obtain ⟨q', i'⟩ := b
  unfold Ordered
  refine ⟨Or.inr ⟨rfl, le_rfl⟩, fun h => ?_⟩
  simp only [ne_eq, Orb.mk.injEq, not_and] at h ⊢
  constructor
  · intro h1 h2
    have : q = q' := by omega
    exact h this (by omega)
  · intro h1
    omega

/-- **C110 (range).** Each process, also one without work, only uses bands that exist. -/
theorem C110_range (hn : 0 < c.nBands) (q : Quad) (P p : ℕ) (hp : p < P) :
    (∃ td, TaskDiv.init (c.total q) P p = some td ∧ ∀ i ∈ [(c.first q td.startMine).i1, (c.first q td.startMine).i2, (c.first q td.startMine).i3, (c.first q td.startMine).i4], i < c.nBands) ∧
      ∀ t ∈ c.process q P p, t.i1 < c.nBands ∧ t.i2 < c.nBands ∧ t.i3 < c.nBands ∧ t.i4 < c.nBands := by
  have hv : ∀ {sym i1 i2}, Valid sym c.nBands i1 i2 → i1 < c.nBands ∧ i2 < c.nBands := by
    intro sym i1 i2 h
    refine ⟨h.1, ?_⟩
    have h1 := h.1
    have h2 := h.2
    unfold lim at h2
    split at h2 <;> omega
  have hat : ∀ {j t}, At c q j t → t.i1 < c.nBands ∧ t.i2 < c.nBands ∧ t.i3 < c.nBands ∧ t.i4 < c.nBands := fun h => ⟨(hv h.v12).1, (hv h.v12).2, (hv h.v34).1, (hv h.v34).2⟩
  have hc : ∀ sym, 0 < count sym c.nBands := by
    intro sym
    rw [← idx_count, show c.nBands = (c.nBands - 1) + 1 from by omega, ← idx_end, idx_add]
    have : 0 < lim sym (c.nBands - 1 + 1) (c.nBands - 1) := by unfold lim; split <;> omega
    omega
  have htot : 0 < c.total q := Nat.mul_pos (hc _) (hc _)
  constructor
  · refine ⟨_, TaskDiv.init_eq _ _ _ hp, ?_⟩
    have hlt : (p * c.total q) / P < c.total q := Nat.div_lt_of_lt_mul (Nat.mul_lt_mul_of_pos_right hp htot)
    obtain ⟨a1, a2, a3, a4⟩ := hat (first_at (c := c) hlt)
    intro i hi
    simp only [List.mem_cons, List.not_mem_nil, or_false] at hi
    rcases hi with rfl | rfl | rfl | rfl <;> assumption
  · intro t ht
    rw [process_eq q P p hp, List.mem_map] at ht
    obtain ⟨j, hj, rfl⟩ := ht
    rw [TaskDiv.mem_interval] at hj
    have h1 : ((p + 1) * c.total q) / P ≤ c.total q := Nat.div_le_of_le_mul (Nat.mul_le_mul_right _ hp)
    exact hat (first_at (by omega))

/-- **C110 (one particle).** For each state, each pair of bands is written once with the first index not smaller than the second; since the matrix is Hermitian every element is known. -/
theorem C110_one (H0 : ℕ → ℕ → ℕ → ℂ) (hH : ∀ q a b, H0 q b a = conj (H0 q a b)) :
    (∀ l, l ∈ c.oneLines H0 ↔ ∃ q a b, c.Has ⟨q, a⟩ ∧ b ≤ a ∧ printed (H0 q a b) = some l.value ∧ l.n1 = c.number ⟨q, a⟩ ∧ l.n2 = c.number ⟨q, b⟩ ∧ l.n3 = 0 ∧ l.n4 = 0) ∧
      ∀ q a b, c.Has ⟨q, a⟩ → c.Has ⟨q, b⟩ → 1e-8 < ‖H0 q a b‖ → ∃ l ∈ c.oneLines H0,
        (l.n1 = c.number ⟨q, a⟩ ∧ l.n2 = c.number ⟨q, b⟩ ∧ ‖l.value - H0 q a b‖ ≤ 1e-8) ∨ (l.n1 = c.number ⟨q, b⟩ ∧ l.n2 = c.number ⟨q, a⟩ ∧ ‖conj l.value - H0 q a b‖ ≤ 1e-8) := by
  have hmem : ∀ l, l ∈ c.oneLines H0 ↔ ∃ q a b, c.Has ⟨q, a⟩ ∧ b ≤ a ∧ printed (H0 q a b) = some l.value ∧ l.n1 = c.number ⟨q, a⟩ ∧ l.n2 = c.number ⟨q, b⟩ ∧ l.n3 = 0 ∧ l.n4 = 0 := by
    intro l
    unfold Calc.oneLines
    simp only [List.mem_flatMap, List.mem_filterMap, List.mem_range, Option.map_eq_some_iff]
    constructor
    · rintro ⟨q, hq, a, ha, b, hb, v, hv, rfl⟩
      exact ⟨q, a, b, ⟨hq, ha⟩, by omega, hv, rfl, rfl, rfl, rfl⟩
    · rintro ⟨q, a, b, ⟨hq, ha⟩, hb, hv, e1, e2, e3, e4⟩
      refine ⟨q, hq, a, ha, b, by omega, l.value, hv, ?_⟩
      obtain ⟨v, n1, n2, n3, n4⟩ := l
      simp only at e1 e2 e3 e4
      rw [e1, e2, e3, e4]
      rfl
  refine ⟨hmem, ?_⟩
  have hp : ∀ K : ℂ, 1e-8 < ‖K‖ → ∃ v, printed K = some v ∧ ‖v - K‖ ≤ 1e-8 := by
    intro K hK
    obtain ⟨h1, h2⟩ := C110_threshold K
    cases hv : printed K with
    | none => exact absurd (h1.1 hv) (not_le.2 hK)
    | some v => exact ⟨v, rfl, h2 v hv⟩
  intro q a b ha hb hK
  rcases le_total b a with hab | hab
  · obtain ⟨v, hv, hle⟩ := hp _ hK
    exact ⟨⟨v, c.number ⟨q, a⟩, c.number ⟨q, b⟩, 0, 0⟩, (hmem _).2 ⟨q, a, b, ha, hab, hv, rfl, rfl, rfl, rfl⟩, Or.inl ⟨rfl, rfl, hle⟩⟩
  · have hK' : 1e-8 < ‖H0 q b a‖ := by rw [hH, RCLike.norm_conj]; exact hK
    obtain ⟨v, hv, hle⟩ := hp _ hK'
    refine ⟨⟨v, c.number ⟨q, b⟩, c.number ⟨q, a⟩, 0, 0⟩, (hmem _).2 ⟨q, b, a, hb, hab, hv, rfl, rfl, rfl, rfl⟩, Or.inr ⟨rfl, rfl, ?_⟩⟩
    rw [hH q b a, ← map_sub, RCLike.norm_conj]
    exact hle

/-- The potential of a pair does not change when the orbitals of real wavefunctions at the same k-point are exchanged. -/
theorem pair_comm (a b : Orb) (hr : ∀ q i s r, conj (c.psi q i s r) = c.psi q i s r) (dk : V3 ℝ) : c.pair a b dk = c.pair b a dk := by
  funext r
  unfold Calc.pair
  congr 1
  refine Finset.sum_congr rfl fun s _ => ?_
  rw [hr, hr, mul_comm]

/-- **C110 (complete, partial).** When all states are at the same k-point and wavefunctions are real, the integral of any four orbitals with the right spins equals a wanted one, with the orbitals of pairs exchanged. (It fails
otherwise, see below.) -/
theorem C110_complete_partial (ht : 0 ≤ c.thrSq) (hk : ∀ q q', c.k q = c.k q') (hr : ∀ q i s r, conj (c.psi q i s r) = c.psi q i s r) (a b d e : Orb) (ha : c.Has a) (hb : c.Has b) (hd : c.Has d) (he : c.Has e)
    (h1 : c.spin a.q = c.spin b.q) (h2 : c.spin d.q = c.spin e.q) :
    ∃ a' b' d' e', c.Wanted a' b' d' e' ∧ ((a' = a ∧ b' = b) ∨ (a' = b ∧ b' = a)) ∧ ((d' = d ∧ e' = e) ∨ (d' = e ∧ e' = d)) ∧ c.coulomb a' b' d' e' = c.coulomb a b d e := by
  have hdk : ∀ q q' : ℕ, (fun j => c.k q' j - c.k q j) = (0 : V3 ℝ) := fun q q' => by
    funext j
    rw [hk q' q]
    exact sub_self _
  have hcoul : ∀ a b d e : Orb, c.coulomb a b d e = ∑ x, conj (c.coul 0 (c.fft (c.pair a b 0)) x) * c.fft (c.pair d e 0) x := by
    intro a b d e
    unfold Calc.coulomb
    rw [hdk]
    have : (fun j => (c.k e.q j - c.k d.q j) - (c.k b.q j - c.k a.q j)) = (0 : V3 ℝ) := by
      funext j
      rw [hk e.q d.q, hk b.q a.q]
      simp
    rw [this]
  have hcons : ∀ a b d e : Orb, c.spin a.q = c.spin b.q → c.spin d.q = c.spin e.q → c.Conserves a b d e := by
    intro a b d e h1 h2
    refine ⟨h1, h2, ?_⟩
    rw [hdk, hdk]
    simpa [PL.circDistanceSquared] using ht
  have hord : ∀ a b : Orb, c.Has a → c.Has b → c.spin a.q = c.spin b.q → ∃ a' b', c.Has a' ∧ c.Has b' ∧ Ordered a' b' ∧ c.spin a'.q = c.spin b'.q ∧ ((a' = a ∧ b' = b) ∨ (a' = b ∧ b' = a)) ∧ c.pair a' b' 0 = c.pair a b 0 := by
    intro a b ha hb hs
    by_cases h : Ordered a b
    · exact ⟨a, b, ha, hb, h, hs, Or.inl ⟨rfl, rfl⟩, rfl⟩
    · have hne : b ≠ a := fun h' => h (h' ▸ (C110_pairs b b).1)
      exact ⟨b, a, hb, ha, ((C110_pairs b a).2 hne).2 h, hs.symm, Or.inr ⟨rfl, rfl⟩, pair_comm c b a hr 0⟩
  obtain ⟨a', b', x1, x2, x3, x4, x5, x6⟩ := hord a b ha hb h1
  obtain ⟨d', e', y1, y2, y3, y4, y5, y6⟩ := hord d e hd he h2
  refine ⟨a', b', d', e', ⟨x1, x2, y1, y2, x3, y3, hcons _ _ _ _ x4 y4⟩, x5, y5, ?_⟩
  rw [hcoul, hcoul, x6, y6]

/-- Three k-points in a row that divide the reciprocal cell, one band, constant wavefunctions. -/
def ring3 : Calc Unit Unit 1 where
  nStates := 3
  nBands := 1
  spin _ := 0
  k q j := if j = 0 then q / 3 else 0
  psi _ _ _ _ := 1
  bloch _ _ := 1
  fft f := f
  coul _ f := f
  thrSq := 1e-8

/-- **C110 (complete), fails.** With several k-points, integrals that conserve wave vectors and do not vanish are missing, together with all those related to them by exchanging the pairs or by complex conjugation (that
is, exchanging the orbitals of both pairs). -/
theorem C110_complete_fails (P : ℕ) (hP : 0 < P) : ∃ a b d e : Orb, ring3.Has a ∧ ring3.Has b ∧ ring3.Has d ∧ ring3.Has e ∧ ring3.Conserves a b d e ∧ ring3.coulomb a b d e = 1 ∧
    ∀ x ∈ [(a, b, d, e), (d, e, a, b), (b, a, e, d), (e, d, b, a)], x ∉ (ring3.elements P).map orbs := by
  obtain ⟨-, h, -⟩ := C110_elements ring3 P hP
  refine ⟨⟨1, 0⟩, ⟨0, 0⟩, ⟨0, 0⟩, ⟨2, 0⟩, ⟨by norm_num [ring3], by norm_num [ring3]⟩, ⟨by norm_num [ring3], by norm_num [ring3]⟩, ⟨by norm_num [ring3], by norm_num [ring3]⟩, ⟨by norm_num [ring3], by norm_num [ring3]⟩, ⟨rfl, rfl, ?_⟩, ?_, ?_⟩
  · have e1 : 2 * Real.pi * ((0 : ℕ) / 3 - (1 : ℕ) / 3 : ℝ) = 2 * Real.pi * ((2 : ℕ) / 3 - (0 : ℕ) / 3 : ℝ) - 2 * Real.pi := by push_cast; ring
    have e2 := Real.cos_sub_two_pi (2 * Real.pi * ((2 : ℕ) / 3 - (0 : ℕ) / 3 : ℝ))
    have e3 := Real.sin_sub_two_pi (2 * Real.pi * ((2 : ℕ) / 3 - (0 : ℕ) / 3 : ℝ))
    simp only [PL.circDistanceSquared, ring3, if_true, show ((1 : Fin 3) = 0) = False from by simp, show ((2 : Fin 3) = 0) = False from by simp, if_false]
    rw [e1, e2, e3]
    norm_num
  · simp [Calc.coulomb, Calc.pair, ring3]
  · intro x hx hm
    simp only [List.mem_cons, List.not_mem_nil, or_false] at hx
    rcases hx with rfl | rfl | rfl | rfl
    · have := ((h _ _ _ _).1 hm).2.2.2.2.2.1
      simp [Ordered] at this
    · have := ((h _ _ _ _).1 hm).2.2.2.2.1
      simp [Ordered] at this
    · have := ((h _ _ _ _).1 hm).2.2.2.2.1
      simp [Ordered] at this
    · have := ((h _ _ _ _).1 hm).2.2.2.2.2.1
      simp [Ordered] at this

/-- One state with two bands: real wavefunctions on a grid of two points. -/
def gamma2 : Calc (Fin 2) (Fin 2) 1 where
  nStates := 1
  nBands := 2
  spin _ := 0
  k _ _ := 0
  psi _ i _ r := if i = 0 then 1 else if r = 0 then 1 else -1
  bloch _ _ := 1
  fft f := f
  coul _ f := f
  thrSq := 1e-8

/-- C110 (elements, lines): three processes write an exchange integral. -/
example : ⟨2, 2, 1, 2, 1⟩ ∈ gamma2.twoLines 3 := by
  rw [C110_lines gamma2 3 (by norm_num)]
  refine ⟨⟨0, 1⟩, ⟨0, 0⟩, ⟨0, 1⟩, ⟨0, 0⟩, ⟨⟨by norm_num [gamma2], by norm_num [gamma2]⟩, ⟨by norm_num [gamma2], by norm_num [gamma2]⟩, ⟨by norm_num [gamma2], by norm_num [gamma2]⟩, ⟨by norm_num [gamma2], by norm_num [gamma2]⟩,
    Or.inr ⟨rfl, by norm_num⟩, Or.inr ⟨rfl, by norm_num⟩, rfl, rfl, by norm_num [PL.circDistanceSquared, gamma2]⟩, ?_, rfl, rfl, rfl, rfl⟩
  have : gamma2.coulomb ⟨0, 1⟩ ⟨0, 0⟩ ⟨0, 1⟩ ⟨0, 0⟩ = 2 := by
    simp [Calc.coulomb, Calc.pair, gamma2]
    norm_num
  rw [this]
  unfold printed Kcut
  norm_num

/-- C110 (complete): the hypotheses hold for this system. -/
example : ∃ a' b' d' e', gamma2.Wanted a' b' d' e' ∧ ((a' = ⟨0, 0⟩ ∧ b' = ⟨0, 1⟩) ∨ (a' = ⟨0, 1⟩ ∧ b' = ⟨0, 0⟩)) ∧ ((d' = ⟨0, 1⟩ ∧ e' = ⟨0, 0⟩) ∨ (d' = ⟨0, 0⟩ ∧ e' = ⟨0, 1⟩)) ∧
    gamma2.coulomb a' b' d' e' = gamma2.coulomb ⟨0, 0⟩ ⟨0, 1⟩ ⟨0, 1⟩ ⟨0, 0⟩ :=
  C110_complete_partial gamma2 (by norm_num [gamma2]) (fun _ _ => rfl) (fun q i s r => by simp only [gamma2]; split_ifs <;> simp) _ _ _ _ ⟨by norm_num [gamma2], by norm_num [gamma2]⟩ ⟨by norm_num [gamma2], by norm_num [gamma2]⟩
    ⟨by norm_num [gamma2], by norm_num [gamma2]⟩ ⟨by norm_num [gamma2], by norm_num [gamma2]⟩ rfl rfl

end
end Jdftx.FCI
