import Verif.Lemmas.TetraMerge

/-! # Lemmas for the tetrahedron density of states: one band -/
set_option linter.unusedSectionVars false

namespace Jdftx.Tetra

variable {K : Type} [Field K] [LinearOrder K] [IsStrictOrderedRing K]

theorem deltaAdd_keys (e d : K) (m : List (K × K)) (x : K) : x ∈ (deltaAdd e d m).map Prod.fst ↔ x = e ∨ x ∈ m.map Prod.fst := by
  induction m with
  | nil => simp [deltaAdd]
  | cons p m ih =>
    unfold deltaAdd
    split
    · simp
    · split
      · simp only [List.map_cons, List.mem_cons, ih]; tauto
      · rename_i h1 h2
        have : p.1 = e := le_antisymm (not_lt.1 h1) (not_lt.1 h2)
        simp only [List.map_cons, List.mem_cons, this]; tauto

theorem deltaAdd_sorted (e d : K) (m : List (K × K)) (h : (m.map Prod.fst).Pairwise (· < ·)) : ((deltaAdd e d m).map Prod.fst).Pairwise (· < ·) := by
  induction m with
  | nil => simp [deltaAdd]
  | cons p m ih =>
    have hp := List.pairwise_cons.1 h
    unfold deltaAdd
    split
    · rename_i h1
      rw [List.map_cons, List.pairwise_cons]
      refine ⟨?_, h⟩
      intro x hx
      rw [List.map_cons] at hx
      rcases List.mem_cons.1 hx with rfl | hx
      · exact h1
      · exact lt_trans h1 (hp.1 x hx)
    · split
      · rename_i h2
        rw [List.map_cons, List.pairwise_cons]
        refine ⟨?_, ih hp.2⟩
        intro x hx
        rcases (deltaAdd_keys e d m x).1 hx with rfl | hx
        · exact h2
        · exact hp.1 x hx
      · exact h

/-- What the pieces and delta functions collected so far know about the tetrahedra read so far. -/
structure Inv (e w : Nat → K) (tets : List (Tet K)) (c : Cspline K) : Prop where
  pos : ∀ p ∈ c.ivs, p.1.1 < p.1.2
  deltas : (c.deltas.map Prod.fst).Pairwise (· < ·)
  total : ivsInt c.ivs + deltaInt c.deltas = states w tets
  node : ∀ x, (x ∈ c.deltas.map Prod.fst ∨ ∃ k ∈ c.ivs.map Prod.fst, x = k.1 ∨ x = k.2) ↔ ∃ t ∈ tets, ∃ q ∈ t.q, x = e q
  cover : ∀ t ∈ tets, ∀ q ∈ t.q, ∀ q' ∈ t.q, ∀ E, e q < E → E < e q' → (∀ r ∈ t.q, e r ≠ E) → ∃ k ∈ c.ivs.map Prod.fst, k.1 < E ∧ E < k.2

theorem ite_keys (p : Prop) [Decidable p] (k : K × K) (d : Bez K) (m : List ((K × K) × Bez K)) (x : K × K) :
    x ∈ (if p then mapAdd k d m else m).map Prod.fst ↔ (p ∧ x = k) ∨ x ∈ m.map Prod.fst := by
  split
  · rename_i h; rw [mapAdd_keys]; simp [h]
  · rename_i h; simp [h]

/-- Keys after a tetrahedron that is not flat. -/
theorem accum_keys (V : K) (c0 c1 c2 c3 : Corner K) (c : Cspline K) (hne : c3.1 ≠ c0.1) (x : K × K) :
    x ∈ (accumSorted V c0 c1 c2 c3 c).ivs.map Prod.fst ↔
      (c2.1 < c3.1 ∧ x = (c2.1, c3.1)) ∨ (c1.1 < c2.1 ∧ x = (c1.1, c2.1)) ∨ (c0.1 < c1.1 ∧ x = (c0.1, c1.1)) ∨ x ∈ c.ivs.map Prod.fst := by
  unfold accumSorted
  simp only
  rw [if_neg hne]
  simp only [ite_keys, gt_iff_lt]

theorem accum_deltas (V : K) (c0 c1 c2 c3 : Corner K) (c : Cspline K) (hne : c3.1 ≠ c0.1) : (accumSorted V c0 c1 c2 c3 c).deltas = c.deltas := by
  unfold accumSorted
  simp only
  rw [if_neg hne]

theorem accum_flat (V : K) (c0 c1 c2 c3 : Corner K) (c : Cspline K) (h : c3.1 = c0.1) :
    accumSorted V c0 c1 c2 c3 c = { c with deltas := deltaAdd c0.1 (V * (1 / 4) * (c0.2 + c1.2 + c2.2 + c3.2)) c.deltas } := by
  unfold accumSorted
  simp only
  rw [if_pos h]

/-- A sort by energy. -/
def SortsBy (srt : List (Corner K) → List (Corner K)) : Prop := ∀ l, (srt l).Perm l ∧ (srt l).Pairwise fun a b => a.1 ≤ b.1

theorem accum_inv (srt : List (Corner K) → List (Corner K)) (hsrt : SortsBy srt) (e w : Nat → K) (t : Tet K) (ht : t.q.length = 4) (tets : List (Tet K)) (c : Cspline K) (h : Inv e w tets c) :
    Inv e w (tets ++ [t]) (accumTetrahedron srt e w t c) := by
  obtain ⟨hperm, hsorted⟩ := hsrt (t.q.map fun q => (e q, w q))
  obtain ⟨c0, c1, c2, c3, heq⟩ : ∃ c0 c1 c2 c3, srt (t.q.map fun q => (e q, w q)) = [c0, c1, c2, c3] := by
    have : (srt (t.q.map fun q => (e q, w q))).length = 4 := by rw [hperm.length_eq, List.length_map, ht]
    match hs : srt (t.q.map fun q => (e q, w q)), this with
    | [c0, c1, c2, c3], _ => exact ⟨c0, c1, c2, c3, rfl⟩
  have hmemE : ∀ x, (x = c0.1 ∨ x = c1.1 ∨ x = c2.1 ∨ x = c3.1) ↔ ∃ q ∈ t.q, x = e q := by
    intro x
    have hp : ([c0, c1, c2, c3].map Prod.fst).Perm (t.q.map e) := by
      have := (heq ▸ hperm).map Prod.fst
      simpa [Function.comp_def] using this
    have := hp.mem_iff (a := x)
    simp only [List.map_cons, List.map_nil, List.mem_cons, List.not_mem_nil, or_false, List.mem_map] at this
    rw [this]
    constructor
    · rintro ⟨q, hq, rfl⟩; exact ⟨q, hq, rfl⟩
    · rintro ⟨q, hq, rfl⟩; exact ⟨q, hq, rfl⟩
  have hsumW : c0.2 + c1.2 + c2.2 + c3.2 = (t.q.map w).sum := by
    have hp : ([c0, c1, c2, c3].map Prod.snd).Perm (t.q.map w) := by
      have := (heq ▸ hperm).map Prod.snd
      simpa [Function.comp_def] using this
    rw [← hp.sum_eq]
    simp; ring
  rw [heq] at hsorted
  simp only [List.pairwise_cons, List.mem_cons, List.not_mem_nil, or_false, forall_eq_or_imp, forall_eq] at hsorted
  obtain ⟨⟨h01, h02, h03⟩, ⟨h12, h13⟩, h23, _⟩ := hsorted
  have hint := accumSorted_int t.V c0 c1 c2 c3 h01 h12 h23 c
  have hrun : accumTetrahedron srt e w t c = accumSorted t.V c0 c1 c2 c3 c := by
    unfold accumTetrahedron; rw [heq]
  rw [hrun]
  have htot : ivsInt (accumSorted t.V c0 c1 c2 c3 c).ivs + deltaInt (accumSorted t.V c0 c1 c2 c3 c).deltas = states w (tets ++ [t]) := by
    rw [hint, h.total, hsumW]
    simp [states]
  by_cases hne : c3.1 = c0.1
  · have hfl := accum_flat t.V c0 c1 c2 c3 c hne
    have hiv : (accumSorted t.V c0 c1 c2 c3 c).ivs = c.ivs := by rw [hfl]
    have hde : (accumSorted t.V c0 c1 c2 c3 c).deltas = deltaAdd c0.1 (t.V * (1 / 4) * (c0.2 + c1.2 + c2.2 + c3.2)) c.deltas := by rw [hfl]
    have e1 : c1.1 = c0.1 := le_antisymm (hne ▸ h13) h01
    have e2 : c2.1 = c0.1 := le_antisymm (hne ▸ h23) h02
    refine ⟨by rw [hiv]; exact h.pos, by rw [hde]; exact deltaAdd_sorted _ _ _ h.deltas, htot, ?_, ?_⟩
    · intro x
      rw [hiv, hde, deltaAdd_keys, or_assoc, h.node x]
      constructor
      · rintro (hx | ⟨t', ht', q, hq, hx⟩)
        · obtain ⟨q, hq, hx⟩ := (hmemE x).1 (Or.inl hx)
          exact ⟨t, by simp, q, hq, hx⟩
        · exact ⟨t', by simp [ht'], q, hq, hx⟩
      · rintro ⟨t', ht', q, hq, hx⟩
        rcases List.mem_append.1 ht' with ht' | ht'
        · exact Or.inr ⟨t', ht', q, hq, hx⟩
        · simp only [List.mem_singleton] at ht'
          subst ht'
          have := (hmemE x).2 ⟨q, hq, hx⟩
          rw [e1, e2, hne] at this
          tauto
    · intro t' ht' q hq q' hq' E hE hE' hno
      rw [hiv]
      rcases List.mem_append.1 ht' with ht' | ht'
      · exact h.cover t' ht' q hq q' hq' E hE hE' hno
      · simp only [List.mem_singleton] at ht'
        subst ht'
        have a1 := (hmemE (e q)).2 ⟨q, hq, rfl⟩
        have a2 := (hmemE (e q')).2 ⟨q', hq', rfl⟩
        rw [e1, e2, hne] at a1 a2
        have b1 : e q = c0.1 := by tauto
        have b2 : e q' = c0.1 := by tauto
        exact absurd (lt_trans hE hE') (by rw [b1, b2]; exact lt_irrefl _)
  · have hde := accum_deltas t.V c0 c1 c2 c3 c hne
    have hk := accum_keys t.V c0 c1 c2 c3 c hne
    refine ⟨?_, by rw [hde]; exact h.deltas, htot, ?_, ?_⟩
    · intro p hp
      rcases (hk p.1).1 (List.mem_map_of_mem hp) with ⟨a, b⟩ | ⟨a, b⟩ | ⟨a, b⟩ | b
      · rw [b]; exact a
      · rw [b]; exact a
      · rw [b]; exact a
      · obtain ⟨p', hp', hpp⟩ := List.mem_map.1 b
        rw [← hpp]; exact h.pos p' hp'
    · intro x
      rw [hde]
      have hnew : (∃ k ∈ (accumSorted t.V c0 c1 c2 c3 c).ivs.map Prod.fst, x = k.1 ∨ x = k.2) ↔ (∃ q ∈ t.q, x = e q) ∨ ∃ k ∈ c.ivs.map Prod.fst, x = k.1 ∨ x = k.2 := by
        rw [← hmemE x]
        constructor
        · rintro ⟨k, hkm, hx⟩
          rcases (hk k).1 hkm with ⟨_, b⟩ | ⟨_, b⟩ | ⟨_, b⟩ | b
          · rw [b] at hx; simp only at hx; left; tauto
          · rw [b] at hx; simp only at hx; left; tauto
          · rw [b] at hx; simp only at hx; left; tauto
          · exact Or.inr ⟨k, b, hx⟩
        · rintro (hx | ⟨k, hkm, hx⟩)
          · rcases eq_or_lt_of_le h01 with E1 | E1
            · rcases eq_or_lt_of_le h12 with E2 | E2
              · have E3 : c2.1 < c3.1 := lt_of_le_of_ne h23 (fun hh => hne (by rw [← hh, ← E2, ← E1]))
                refine ⟨(c2.1, c3.1), (hk _).2 (Or.inl ⟨E3, rfl⟩), ?_⟩
                simp only; rw [E1, E2] at hx; tauto
              · rcases eq_or_lt_of_le h23 with E3 | E3
                · refine ⟨(c1.1, c2.1), (hk _).2 (Or.inr (Or.inl ⟨E2, rfl⟩)), ?_⟩
                  simp only; rw [E1, ← E3] at hx; tauto
                · by_cases hh : x = c3.1
                  · exact ⟨(c2.1, c3.1), (hk _).2 (Or.inl ⟨E3, rfl⟩), Or.inr hh⟩
                  · refine ⟨(c1.1, c2.1), (hk _).2 (Or.inr (Or.inl ⟨E2, rfl⟩)), ?_⟩
                    simp only; rw [E1] at hx; tauto
            · by_cases hh : x = c0.1 ∨ x = c1.1
              · exact ⟨(c0.1, c1.1), (hk _).2 (Or.inr (Or.inr (Or.inl ⟨E1, rfl⟩))), hh⟩
              · rcases eq_or_lt_of_le h12 with E2 | E2
                · rcases eq_or_lt_of_le h23 with E3 | E3
                  · exfalso; rw [← E3, ← E2] at hx; tauto
                  · refine ⟨(c2.1, c3.1), (hk _).2 (Or.inl ⟨E3, rfl⟩), ?_⟩
                    simp only; tauto
                · rcases eq_or_lt_of_le h23 with E3 | E3
                  · refine ⟨(c1.1, c2.1), (hk _).2 (Or.inr (Or.inl ⟨E2, rfl⟩)), ?_⟩
                    simp only; rw [← E3] at hx; tauto
                  · refine ⟨(c2.1, c3.1), (hk _).2 (Or.inl ⟨E3, rfl⟩), ?_⟩
                    simp only; tauto
          · exact ⟨k, (hk _).2 (Or.inr (Or.inr (Or.inr hkm))), hx⟩
      rw [hnew]
      have hold := h.node x
      constructor
      · intro hx
        rcases hx with hx | hx | hx
        · obtain ⟨t', ht', q, hq, he⟩ := hold.1 (Or.inl hx); exact ⟨t', by simp [ht'], q, hq, he⟩
        · obtain ⟨q, hq, he⟩ := hx; exact ⟨t, by simp, q, hq, he⟩
        · obtain ⟨t', ht', q, hq, he⟩ := hold.1 (Or.inr hx); exact ⟨t', by simp [ht'], q, hq, he⟩
      · rintro ⟨t', ht', q, hq, he⟩
        rcases List.mem_append.1 ht' with ht' | ht'
        · rcases hold.2 ⟨t', ht', q, hq, he⟩ with a | a
          · exact Or.inl a
          · exact Or.inr (Or.inr a)
        · simp only [List.mem_singleton] at ht'
          subst ht'
          exact Or.inr (Or.inl ⟨q, hq, he⟩)
    · intro t' ht' q hq q' hq' E hE hE' hno
      rcases List.mem_append.1 ht' with ht' | ht'
      · obtain ⟨k, hkm, hx⟩ := h.cover t' ht' q hq q' hq' E hE hE' hno
        exact ⟨k, (hk _).2 (Or.inr (Or.inr (Or.inr hkm))), hx⟩
      · simp only [List.mem_singleton] at ht'
        subst ht'
        have a1 := (hmemE (e q)).2 ⟨q, hq, rfl⟩
        have a2 := (hmemE (e q')).2 ⟨q', hq', rfl⟩
        have lo : c0.1 < E := by
          have : c0.1 ≤ e q := by rcases a1 with a | a | a | a <;> rw [a] <;> first | exact le_rfl | assumption
          exact lt_of_le_of_lt this hE
        have hi : E < c3.1 := by
          have : e q' ≤ c3.1 := by rcases a2 with a | a | a | a <;> rw [a] <;> first | exact le_rfl | assumption
          exact lt_of_lt_of_le hE' this
        have ne1 : c1.1 ≠ E := by
          obtain ⟨r, hr, hx⟩ := (hmemE c1.1).1 (by tauto)
          rw [hx]; exact hno r hr
        have ne2 : c2.1 ≠ E := by
          obtain ⟨r, hr, hx⟩ := (hmemE c2.1).1 (by tauto)
          rw [hx]; exact hno r hr
        rcases lt_or_gt_of_ne ne1 with g1 | g1
        · rcases lt_or_gt_of_ne ne2 with g2 | g2
          · exact ⟨(c2.1, c3.1), (hk _).2 (Or.inl ⟨lt_trans g2 hi, rfl⟩), g2, hi⟩
          · exact ⟨(c1.1, c2.1), (hk _).2 (Or.inr (Or.inl ⟨lt_trans g1 g2, rfl⟩)), g1, g2⟩
        · exact ⟨(c0.1, c1.1), (hk _).2 (Or.inr (Or.inr (Or.inl ⟨lt_trans lo g1, rfl⟩))), lo, g1⟩

theorem fold_inv (srt : List (Corner K) → List (Corner K)) (hsrt : SortsBy srt) (e w : Nat → K) (tets : List (Tet K)) : ∀ (done : List (Tet K)) (c : Cspline K), (∀ t ∈ tets, t.q.length = 4) → Inv e w done c →
    Inv e w (done ++ tets) (tets.foldl (fun c t => accumTetrahedron srt e w t c) c) := by
  induction tets with
  | nil => intro done c _ h; simpa using h
  | cons t tets ih =>
    intro done c h4 h
    have := ih (done ++ [t]) _ (fun t' ht' => h4 t' (by simp [ht'])) (accum_inv srt hsrt e w t (h4 t (by simp)) done c h)
    simpa using this

theorem inv_start (e w : Nat → K) : Inv e w [] (⟨[], []⟩ : Cspline K) := by
  refine ⟨by simp, by simp, by simp [ivsInt, deltaInt, states], by simp, by simp⟩

/-- One band: the spline has two points at least, increasing energies, and the number of states as integral. -/
theorem band_spec (e w : Nat → K) (tets : List (Tet K)) (hne : ∃ t ∈ tets, t.q ≠ []) (hgap : Gapless e tets) (Etol : K) (hE : 0 < Etol) (c : Cspline K) (h : Inv e w tets c) :
    ∃ s, bandSpline Etol c = .ok s ∧ Spl s ∧ area s = states w tets := by
  obtain ⟨hns, hnm⟩ := nodes_spec c
  have hnm' : ∀ y, y ∈ nodes c ↔ ∃ t ∈ tets, ∃ q ∈ t.q, y = e q := by
    intro y
    rw [hnm y, ← h.node y]
    simp only [List.mem_map]
    constructor
    · rintro (⟨d, hd, rfl⟩ | ⟨p, hp, hx⟩)
      · exact Or.inl ⟨d, hd, rfl⟩
      · exact Or.inr ⟨p.1, ⟨p, hp, rfl⟩, hx⟩
    · rintro (⟨d, hd, rfl⟩ | ⟨_, ⟨p, hp, rfl⟩, hx⟩)
      · exact Or.inl ⟨d, hd, rfl⟩
      · exact Or.inr ⟨p, hp, hx⟩
  by_cases hlen : 2 ≤ (nodes c).length
  · obtain ⟨r, h1, h2, h3, h4⟩ := coalesce_spec c h.pos h.deltas (by
      intro k hk
      obtain ⟨hlt, hbetween⟩ := pairs_lt _ hns k hk
      obtain ⟨hk1, hk2⟩ := pairs_mem _ _ hk
      have hm1 : k.1 < (k.1 + k.2) / 2 := by linarith
      have hm2 : (k.1 + k.2) / 2 < k.2 := by linarith
      have hno : ∀ t ∈ tets, ∀ q ∈ t.q, e q ≠ (k.1 + k.2) / 2 := by
        intro t ht q hq heq
        rcases hbetween (e q) ((hnm' _).2 ⟨t, ht, q, hq, rfl⟩) with g | g
        · linarith
        · linarith
      obtain ⟨t1, ht1, q1, hq1, he1⟩ := (hnm' _).1 hk1
      obtain ⟨t2, ht2, q2, hq2, he2⟩ := (hnm' _).1 hk2
      obtain ⟨t, ht, ⟨q, hq, hql⟩, ⟨q', hq', hqh⟩⟩ := hgap ((k.1 + k.2) / 2) ⟨t1, ht1, q1, hq1, by rw [← he1]; exact hm1⟩ ⟨t2, ht2, q2, hq2, by rw [← he2]; exact hm2⟩ hno
      obtain ⟨kk, hkk, hl, hh⟩ := h.cover t ht q hq q' hq' _ hql hqh (fun r hr => hno t ht r hr)
      obtain ⟨p, hp, rfl⟩ := List.mem_map.1 hkk
      refine ⟨p, hp, ?_, ?_⟩
      · rcases hbetween p.1.1 ((hnm _).2 (Or.inr ⟨p, hp, Or.inl rfl⟩)) with g | g
        · exact g
        · linarith
      · rcases hbetween p.1.2 ((hnm _).2 (Or.inr ⟨p, hp, Or.inr rfl⟩)) with g | g
        · linarith
        · exact g) hlen
    have hb : bandSpline Etol c = (coalesce c >>= fun m => pure (convertLspline m)) := by
      unfold bandSpline
      split
      · rename_i d hiv hde
        exfalso
        have : nodes c = [d.1] := by unfold nodes; rw [hiv, hde]; simp [setInsert]
        rw [this] at hlen
        simp at hlen
      · rfl
    cases r with
    | nil => exact absurd rfl h2
    | cons p m =>
      obtain ⟨ha, hc⟩ := convert_spec m p h3
      refine ⟨convertLspline (p :: m), ?_, ⟨?_, ?_⟩, ?_⟩
      · rw [hb, h1]; rfl
      · simp [convertLspline, convertOne]
      · exact List.isChain_iff_pairwise.1 hc
      · rw [ha, h4, h.total]
  · -- a single energy
    obtain ⟨t, ht, hq⟩ := hne
    obtain ⟨q, hq⟩ := List.exists_mem_of_ne_nil _ hq
    have hmem : e q ∈ nodes c := (hnm' _).2 ⟨t, ht, q, hq, rfl⟩
    have hone : nodes c = [e q] := by
      match hn : nodes c, hlen, hmem with
      | [x], _, hm => simp at hm; rw [hm]
      | _ :: _ :: _, hl, _ => simp at hl
    have hiv : c.ivs = [] := by
      cases hc : c.ivs with
      | nil => rfl
      | cons p m =>
        exfalso
        have hp : p ∈ c.ivs := by rw [hc]; simp
        have a := (hnm p.1.1).2 (Or.inr ⟨p, hp, Or.inl rfl⟩)
        have b := (hnm p.1.2).2 (Or.inr ⟨p, hp, Or.inr rfl⟩)
        rw [hone, List.mem_singleton] at a b
        exact absurd (h.pos p hp) (by rw [a, b]; exact lt_irrefl _)
    obtain ⟨d, hd⟩ : ∃ d, c.deltas = [d] := by
      match hc : c.deltas with
      | [] =>
        exfalso
        rcases (hnm _).1 hmem with ⟨d, hd, _⟩ | ⟨p, hp, _⟩
        · rw [hc] at hd; simp at hd
        · rw [hiv] at hp; simp at hp
      | [d] => exact ⟨d, rfl⟩
      | d :: d' :: ds =>
        exfalso
        have a := (hnm d.1).2 (Or.inl ⟨d, by rw [hc]; simp, rfl⟩)
        have b := (hnm d'.1).2 (Or.inl ⟨d', by rw [hc]; simp, rfl⟩)
        rw [hone, List.mem_singleton] at a b
        have := h.deltas
        rw [hc] at this
        have := (List.pairwise_cons.1 this).1 d'.1 (by simp)
        exact absurd this (by rw [a, b]; exact lt_irrefl _)
    refine ⟨[(d.1 - (1 / 2) * Etol, 0), (d.1, d.2 * (2 / Etol)), (d.1 + (1 / 2) * Etol, 0)], ?_, ⟨by simp, ?_⟩, ?_⟩
    · unfold bandSpline; rw [hiv, hd]
    · simp only [List.map_cons, List.map_nil, List.pairwise_cons, List.mem_cons, List.not_mem_nil, or_false, forall_eq_or_imp, forall_eq]
      refine ⟨⟨by linarith, by linarith⟩, by linarith, by simp⟩
    · rw [← h.total, hiv, hd]
      have : Etol ≠ 0 := ne_of_gt hE
      simp only [area, ivsInt, deltaInt, List.map_nil, List.sum_nil, List.map_cons, List.sum_cons]
      field_simp
      ring

/-- A connected mesh has no gaps, whatever the energies. -/
theorem connected_gapless (tets : List (Tet K)) (h : Connected tets) (e : Nat → K) : Gapless e tets := by
  intro E h1 h2 hno
  obtain ⟨t2, ht2, q2, hq2, hl2⟩ := h2
  obtain ⟨t, ht, a, ⟨q, hq, hb⟩⟩ := h (fun q => e q < E) h1 ⟨t2, ht2, q2, hq2, not_lt.2 (le_of_lt hl2)⟩
  exact ⟨t, ht, a, q, hq, lt_of_le_of_ne (not_lt.1 hb) (hno t ht q hq).symm⟩

end Jdftx.Tetra
