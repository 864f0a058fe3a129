import Verif.Lemmas.FindGroupOps

/-!
# Lemmas for C90: sorting the operations and symmetrising the atoms
-/
namespace Jdftx.FindGroup
open Jdftx.M3 Jdftx.PL Jdftx.Sym
noncomputable section
open Classical

variable {c : Cfg} {sp : Species} {rots : List (Mat Int)} {κ : ℝ} {sym : List (Op ℝ)} {G : Op ℝ → Species → Nat → Nat}

/-! ### Sorting -/

theorem swap0_spec (s : List (Op ℝ)) (i : Nat) (hi : 0 < i) (x y : Op ℝ) (hx : s[0]? = some x) (hy : s[i]? = some y) :
    (swap0 s i).Perm s ∧ (swap0 s i)[0]? = some y := by
  unfold swap0
  rw [hx, hy]
  simp only
  cases s with
  | nil => simp at hx
  | cons z rest =>
    simp only [List.getElem?_cons_zero, Option.some.injEq] at hx
    subst hx
    obtain ⟨j, rfl⟩ : ∃ j, i = j + 1 := ⟨i - 1, by omega⟩
    rw [List.getElem?_cons_succ] at hy
    simp only [List.set_cons_zero, List.set_cons_succ, List.getElem?_cons_zero, and_true]
    obtain ⟨hj, hy'⟩ := List.getElem?_eq_some_iff.1 hy
    have e1 : rest = rest.take j ++ y :: rest.drop (j + 1) := by
      rw [← hy', List.cons_getElem_drop_succ, List.take_append_drop]
    have e2 : rest.set j z = rest.take j ++ z :: rest.drop (j + 1) := List.set_eq_take_append_cons_drop.trans (by rw [if_pos hj])
    rw [e2]
    conv_rhs => rw [e1]
    refine (List.perm_middle.cons y).trans ?_
    refine (List.Perm.swap z y _).trans ?_
    exact List.perm_middle.symm.cons z

theorem sort_spec (sym : List (Op ℝ)) : (sortSymmetries sym).Perm sym ∧
    (Op.one ∈ sym → (sortSymmetries sym)[0]? = some Op.one) := by
  have key : ∀ m i : Nat, ∀ s : List (Op ℝ), 0 < i → s.Perm sym → (∀ j < i, s[j]? = some Op.one → s[0]? = some Op.one) →
      let s' := (List.range' i m).foldl (fun s (i : Nat) =>
        match s[i]? with
        | some op => if op.rot = (Op.one : Op ℝ).rot ∧ op.a = (Op.one : Op ℝ).a then swap0 s i else s
        | none => s) s
      s'.Perm sym ∧ ∀ j < i + m, s'[j]? = some Op.one → s'[0]? = some Op.one := by
    intro m
    induction m with
    | zero => intro i s _ hp hj; exact ⟨hp, fun j h => hj j (by omega)⟩
    | succ m ih =>
      intro i s hi hp hj
      rw [List.range'_succ, List.foldl_cons]
      have step : ∀ s' : List (Op ℝ), (s'.Perm sym) → (∀ j < i + 1, s'[j]? = some Op.one → s'[0]? = some Op.one) →
          let s'' := (List.range' (i + 1) m).foldl (fun s (i : Nat) =>
            match s[i]? with
            | some op => if op.rot = (Op.one : Op ℝ).rot ∧ op.a = (Op.one : Op ℝ).a then swap0 s i else s
            | none => s) s'
          s''.Perm sym ∧ ∀ j < i + (m + 1), s''[j]? = some Op.one → s''[0]? = some Op.one := by
        intro s' h1 h2
        obtain ⟨g1, g2⟩ := ih (i + 1) s' (by omega) h1 h2
        exact ⟨g1, fun j h => g2 j (by omega)⟩
      refine step _ ?_ ?_
      · cases e : s[i]? with
        | none => exact hp
        | some op =>
          simp only
          split
          · obtain ⟨hlt, _⟩ := List.getElem?_eq_some_iff.1 e
            have h0 : s[0]? = some (s[0]'(by omega)) := List.getElem?_eq_getElem (by omega)
            exact (swap0_spec s i hi _ _ h0 e).1.trans hp
          · exact hp
      · intro j hlt hone
        cases e : s[i]? with
        | none =>
          rw [e] at hone
          simp only at hone ⊢
          rcases Nat.lt_or_eq_of_le (Nat.le_of_lt_succ hlt) with h | rfl
          · exact hj j h hone
          · rw [e] at hone; simp at hone
        | some op =>
          rw [e] at hone
          simp only at hone ⊢
          by_cases hc : op.rot = (Op.one : Op ℝ).rot ∧ op.a = (Op.one : Op ℝ).a
          · rw [if_pos hc]
            obtain ⟨hlt, _⟩ := List.getElem?_eq_some_iff.1 e
            have h0 : s[0]? = some (s[0]'(by omega)) := List.getElem?_eq_getElem (by omega)
            rw [(swap0_spec s i hi _ _ h0 e).2, Op.ext' hc.1 hc.2]
          · rw [if_neg hc] at hone ⊢
            rcases Nat.lt_or_eq_of_le (Nat.le_of_lt_succ hlt) with h | rfl
            · exact hj j h hone
            · rw [e] at hone
              simp only [Option.some.injEq] at hone
              exact absurd ⟨by rw [hone], by rw [hone]⟩ hc
  obtain ⟨g1, g2⟩ := key (sym.length - 1) 1 sym (by omega) (List.Perm.refl _) (fun j hj h => by
    have : j = 0 := by omega
    rwa [this] at h)
  refine ⟨g1, fun hone => ?_⟩
  have hm : Op.one ∈ sortSymmetries sym := g1.mem_iff.2 hone
  obtain ⟨j, hj⟩ := List.getElem?_of_mem hm
  obtain ⟨hlt, _⟩ := List.getElem?_eq_some_iff.1 hj
  have hlen : (sortSymmetries sym).length = sym.length := g1.length_eq
  exact g2 j (by omega) hj

theorem Fam.perm (hf : Fam c rots κ sym G) {sym' : List (Op ℝ)} (hp : sym'.Perm sym) : Fam c rots κ sym' G where
  rot_mem := fun op ho => hf.rot_mem op (hp.mem_iff.1 ho)
  lt := fun op ho => hf.lt op (hp.mem_iff.1 ho)
  adm := fun op ho => hf.adm op (hp.mem_iff.1 ho)
  takes := fun op ho => hf.takes op (hp.mem_iff.1 ho)
  balanced := fun op ho => hf.balanced op (hp.mem_iff.1 ho)
  small := fun op ho => hf.small op (hp.mem_iff.1 ho)
  complete := by
    intro op hop δ hδ hm
    obtain ⟨r, hr, h⟩ := hf.complete op hop δ hδ hm
    exact ⟨r, hp.mem_iff.2 hr, h⟩
  distinct := by
    refine (hp.pairwise_iff ?_).2 hf.distinct
    intro p q h e hn
    exact h e.symm (hn.neg.eq fun k => by ring)

/-! ### Atom maps -/

theorem opLoop_spec (hf : Fam c rots κ sym G) (h : Sharp c rots κ) (hg : PointGroup rots) (hm : MeshOk c) (hsp : sp ∈ c.species)
    (N : Nat) {a1 : Nat} (ha : a1 < sp.n) (l : List (Op ℝ × Nat)) (hl : ∀ x ∈ l, x.1 ∈ sym) (s : MapState) :
    ∃ s', opLoop c sp N a1 l s = .ok s' ∧
      (∀ a q, (∀ op, (op, q) ∈ l → a ≠ a1) → s'.atomMap a q = s.atomMap a q) ∧
      (∀ op q, (op, q) ∈ l → (∀ op', (op', q) ∈ l → op' = op) → s'.atomMap a1 q = G op sp a1) ∧
      (∀ b k, s'.datpos b k = s.datpos b k + (l.map fun x => if G x.1 sp a1 = b then (1 / (N : ℝ)) * dev G x.1 sp a1 k else 0).sum) := by
  induction l generalizing s with
  | nil => exact ⟨s, rfl, fun _ _ _ => rfl, by simp, by simp⟩
  | cons x l ih =>
    obtain ⟨op, q0⟩ := x
    have ho : op ∈ sym := hl (op, q0) List.mem_cons_self
    have hthr := h.thr_pos
    have hle := h.thr_le hg
    obtain ⟨r, e, h1, h2⟩ := lookup_atom hthr (hm sp hsp) (fun _ => True) (fun k => mulMV (castMat op.rot) (sp.pos a1) k + op.a k)
    have htk := hf.takes op ho sp hsp a1 ha
    have hne := h2 (G op sp a1) (hf.lt op ho sp hsp a1 ha) (near_coincide hthr htk) trivial
    obtain ⟨b, rfl⟩ := Option.ne_none_iff_exists'.1 hne
    obtain ⟨hb, hc, _⟩ := h1 b rfl
    have hbg : b = G op sp a1 := image_unique h hsp hb (hf.lt op ho sp hsp a1 ha) (coincide_near hthr hc) htk (by linarith)
    subst hbg
    unfold opLoop
    simp only [e]
    rw [if_pos (hf.adm op ho sp hsp a1 ha).2]
    obtain ⟨s', e', g1, g2, g3⟩ := ih (fun x hx => hl x (List.mem_cons_of_mem _ hx)) _
    refine ⟨s', e', fun a q hq => ?_, fun op' q hmem huniq => ?_, fun b k => ?_⟩
    · rw [g1 a q fun op' hop' => hq op' (List.mem_cons_of_mem _ hop')]
      simp only
      rw [if_neg]
      rintro ⟨rfl, rfl⟩
      exact hq op List.mem_cons_self rfl
    · by_cases hin : ∃ op'', (op'', q) ∈ l
      · obtain ⟨op'', hop''⟩ := hin
        have e1 := huniq op'' (List.mem_cons_of_mem _ hop'')
        subst e1
        exact g2 op'' q hop'' fun o ho' => huniq o (List.mem_cons_of_mem _ ho')
      · rcases List.mem_cons.1 hmem with heq | hmem
        · cases heq
          rw [g1 a1 _ fun o ho' => absurd ⟨o, ho'⟩ hin]
          simp
        · exact absurd ⟨op', hmem⟩ hin
    · rw [g3, List.map_cons, List.sum_cons]
      simp only
      by_cases hb' : b = G op sp a1
      · subst hb'
        simp only [if_true]
        have : dev G op sp a1 k = wrapHalf (fun k => mulMV (castMat op.rot) (sp.pos a1) k + op.a k - sp.pos (G op sp a1) k) k := rfl
        rw [this]; ring
      · rw [if_neg hb', if_neg (Ne.symm hb')]; ring

theorem map_zipIdx_fst {α : Type} (l : List α) (f : α → ℝ) (n : Nat) : ((l.zipIdx n).map fun x => f x.1) = l.map f := by
  induction l generalizing n with
  | nil => rfl
  | cons a l ih => simp only [List.zipIdx_cons, List.map_cons, ih]

theorem mapLoop_spec (hf : Fam c rots κ sym G) (h : Sharp c rots κ) (hg : PointGroup rots) (hm : MeshOk c) (hsp : sp ∈ c.species)
    (l : List Nat) (hl : ∀ a ∈ l, a < sp.n) (hnd : l.Nodup) (s : MapState) :
    ∃ s', mapLoop c sp sym l s = .ok s' ∧
      (∀ a ∉ l, ∀ q, s'.atomMap a q = s.atomMap a q) ∧
      (∀ a ∈ l, ∀ q (hq : q < sym.length), s'.atomMap a q = G sym[q] sp a) ∧
      (∀ b k, s'.datpos b k = s.datpos b k
        + (l.map fun a => (sym.map fun op => if G op sp a = b then (1 / (sym.length : ℝ)) * dev G op sp a k else 0).sum).sum) := by
  induction l generalizing s with
  | nil => exact ⟨s, rfl, fun _ _ _ => rfl, by simp, by simp⟩
  | cons a1 l ih =>
    rw [List.nodup_cons] at hnd
    obtain ⟨s1, e1, f1, f2, f3⟩ := opLoop_spec hf h hg hm hsp sym.length (hl a1 List.mem_cons_self) sym.zipIdx
      (fun x hx => List.fst_mem_of_mem_zipIdx hx) s
    obtain ⟨s2, e2, g1, g2, g3⟩ := ih (fun a ha => hl a (List.mem_cons_of_mem _ ha)) hnd.2 s1
    refine ⟨s2, by unfold mapLoop; simp only [e1, e2], fun a ha q => ?_, fun a ha q hq => ?_, fun b k => ?_⟩
    · rw [List.mem_cons, not_or] at ha
      rw [g1 a ha.2 q, f1 a q fun _ _ => ha.1]
    · rcases List.mem_cons.1 ha with rfl | ha
      · rw [g1 a hnd.1 q]
        refine f2 sym[q] q (List.mem_zipIdx_iff_getElem?.2 (List.getElem?_eq_getElem hq)) fun op' hop' => ?_
        have := List.mem_zipIdx_iff_getElem?.1 hop'
        rw [List.getElem?_eq_getElem hq] at this
        simpa using this.symm
      · exact g2 a ha q hq
    · rw [g3, f3, List.map_cons, List.sum_cons]
      rw [map_zipIdx_fst sym (fun op => if G op sp a1 = b then (1 / (sym.length : ℝ)) * dev G op sp a1 k else 0) 0]
      ring

/-- Displacement of an atom. -/
def shift (sym : List (Op ℝ)) (G : Op ℝ → Species → Nat → Nat) (sp : Species) (b : Nat) (k : Fin 3) : ℝ :=
  ∑ a ∈ Finset.range sp.n, ∑ op ∈ sym.toFinset, if G op sp a = b then (1 / (sym.length : ℝ)) * dev G op sp a k else 0

theorem Fam.nodup (hf : Fam c rots κ sym G) (h : Sharp c rots κ) (hg : PointGroup rots) : sym.Nodup := by
  refine hf.distinct.imp fun {p q} hpq he => ?_
  subst he
  have hthr := h.thr_pos
  have hκ := h.kappa hg
  exact hpq rfl ((near_zero (by positivity)).eq fun k => sub_self _)

theorem mapSpecies_spec (hf : Fam c rots κ sym G) (h : Sharp c rots κ) (hg : PointGroup rots) (hm : MeshOk c) (hsp : sp ∈ c.species) :
    ∃ m x, mapSpecies c sym sp = .ok (m, x) ∧ (∀ a < sp.n, ∀ q (hq : q < sym.length), m a q = G sym[q] sp a) ∧
      ∀ b k, x b k = sp.pos b k + shift sym G sp b k := by
  obtain ⟨s, e, _, g2, g3⟩ := mapLoop_spec hf h hg hm hsp (List.range sp.n) (fun a ha => List.mem_range.1 ha) List.nodup_range
    ⟨fun _ _ => 0, fun _ _ => 0⟩
  refine ⟨s.atomMap, fun a k => sp.pos a k + s.datpos a k, by unfold mapSpecies; rw [e],
    fun a ha q hq => g2 a (List.mem_range.2 ha) q hq, fun b k => ?_⟩
  simp only
  rw [g3, sum_list_range, zero_add]
  congr 1
  refine Finset.sum_congr rfl fun a _ => ?_
  rw [List.sum_toFinset _ (hf.nodup h hg)]

/-- Each operation takes exactly one atom to `b`. -/
theorem Fam.sum_hit (hf : Fam c rots κ sym G) (h : Sharp c rots κ) (hg : PointGroup rots) {op : Op ℝ} (ho : op ∈ sym)
    (hsp : sp ∈ c.species) {b : Nat} (hb : b < sp.n) : ∑ a ∈ Finset.range sp.n, (if G op sp a = b then (1 : ℝ) else 0) = 1 := by
  rw [sum_range_inj (G op sp) (hf.lt op ho sp hsp) (fun a ha b hb e => hf.inj h hg ho hsp ha hb e) fun a => if a = b then (1 : ℝ) else 0]
  simp [Finset.sum_ite_eq', Finset.mem_range.2 hb]

theorem Fam.shift_lt (hf : Fam c rots κ sym G) (h : Sharp c rots κ) (hg : PointGroup rots) (hn : 0 < nAtoms c.species)
    (hsp : sp ∈ c.species) {b : Nat} (hb : b < sp.n) (k : Fin 3) : |shift sym G sp b k| ≤ c.thr / 11 := by
  have hlen : 0 < sym.length := List.length_pos_of_mem (hf.identity h hg hn)
  have hN : (0 : ℝ) < sym.length := by exact_mod_cast hlen
  have hcard : sym.toFinset.card = sym.length := List.toFinset_card_of_nodup (hf.nodup h hg)
  unfold shift
  rw [Finset.sum_comm]
  refine (Finset.abs_sum_le_sum_abs _ _).trans ?_
  have : ∀ op ∈ sym.toFinset, |∑ a ∈ Finset.range sp.n, (if G op sp a = b then (1 / (sym.length : ℝ)) * dev G op sp a k else 0)|
      ≤ (1 / (sym.length : ℝ)) * (c.thr / 11) := by
    intro op ho
    have ho := List.mem_toFinset.1 ho
    refine (Finset.abs_sum_le_sum_abs _ _).trans ?_
    calc _ ≤ ∑ a ∈ Finset.range sp.n, ((1 / (sym.length : ℝ)) * (c.thr / 11)) * (if G op sp a = b then (1 : ℝ) else 0) := by
          refine Finset.sum_le_sum fun a ha => ?_
          by_cases hG : G op sp a = b
          · rw [if_pos hG, if_pos hG, mul_one, abs_mul, abs_of_pos (by positivity)]
            exact mul_le_mul_of_nonneg_left (hf.dev_lt h hg ho hsp (Finset.mem_range.1 ha) k).le (by positivity)
          · rw [if_neg hG, if_neg hG]; simp
      _ = _ := by rw [← Finset.mul_sum, hf.sum_hit h hg ho hsp hb, mul_one]
  refine (Finset.sum_le_card_nsmul _ _ _ this).trans ?_
  rw [hcard, nsmul_eq_mul]
  apply le_of_eq
  field_simp

/-- Composition with an operation permutes the list. -/
theorem Fam.reindex (hf : Fam c rots κ sym G) (h : Sharp c rots κ) (hg : PointGroup rots) (hn : 0 < nAtoms c.species) {p : Op ℝ}
    (hp : p ∈ sym) : ∃ L : Op ℝ → Op ℝ, (∀ q ∈ sym, L q ∈ sym ∧ (L q).rot = mulMM p.rot q.rot ∧
      ∀ sp ∈ c.species, ∀ a < sp.n, G (L q) sp a = G p sp (G q sp a)) ∧
      ∀ F : Op ℝ → ℝ, ∑ q ∈ sym.toFinset, F (L q) = ∑ q ∈ sym.toFinset, F q := by
  have : ∀ q : Op ℝ, ∃ r, q ∈ sym → r ∈ sym ∧ r.rot = mulMM p.rot q.rot ∧ ∀ sp ∈ c.species, ∀ a < sp.n, G r sp a = G p sp (G q sp a) := by
    intro q
    by_cases hq : q ∈ sym
    · obtain ⟨r, hr, e, _, hG⟩ := hf.compose h hg hp hq
      exact ⟨r, fun _ => ⟨hr, e, hG⟩⟩
    · exact ⟨q, fun h => absurd h hq⟩
  choose L hL using this
  refine ⟨L, hL, fun F => ?_⟩
  have hthr := h.thr_pos
  have hκ := h.kappa hg
  have hinj : ∀ q ∈ sym, ∀ q' ∈ sym, L q = L q' → q = q' := by
    intro q hq q' hq' e
    obtain ⟨l1, l2, l3⟩ := hL q hq
    obtain ⟨m1, m2, m3⟩ := hL q' hq'
    obtain ⟨N, hN, hNM⟩ := hg.inv p.rot (hf.rot_mem p hp)
    have hrot : q.rot = q'.rot := by
      have e1 : mulMM p.rot q.rot = mulMM p.rot q'.rot := by rw [← l2, ← m2, e]
      have e2 := congrArg (fun M => Matrix.of (mulMM N M)) e1
      simp only [mulMM_eq, ← Matrix.mul_assoc] at e2
      rw [← mulMM_eq, hNM, diag_one, one_mul, one_mul] at e2
      exact e2
    by_contra hne
    -- the offsets agree closely since the images of the atoms agree
    have hGG : ∀ sp ∈ c.species, ∀ a < sp.n, G q sp a = G q' sp a := by
      intro sp hsp a ha
      refine hf.inj h hg hp hsp (hf.lt q hq sp hsp a ha) (hf.lt q' hq' sp hsp a ha) ?_
      rw [← l3 sp hsp a ha, ← m3 sp hsp a ha, e]
    obtain ⟨s0, hs0, h0⟩ : ∃ s ∈ c.species, 0 < s.n := by
      by_contra hcon
      push Not at hcon
      have : nAtoms c.species = 0 := by
        unfold nAtoms
        apply List.sum_eq_zero
        intro x hx
        obtain ⟨s, hs, rfl⟩ := List.mem_map.1 hx
        have := hcon s hs
        omega
      omega
    have t1 := hf.takes q hq s0 hs0 0 h0
    have t2 := hf.takes q' hq' s0 hs0 0 h0
    rw [← hGG s0 hs0 0 h0] at t2
    have hnear : NearLattice (3 * (κ + 1) * c.thr / 4) fun k => q.a k - q'.a k := by
      refine ((t1.add t2.neg).mono (by nlinarith)).eq fun k => ?_
      simp only [Op.applyReal, hrot]; ring
    have hpw := hf.distinct
    have hsymm : Std.Symm fun p q : Op ℝ => p.rot = q.rot → ¬NearLattice (3 * (κ + 1) * c.thr / 4) fun k => p.a k - q.a k :=
      ⟨fun p q hh e hn => hh e.symm (hn.neg.eq fun k => by ring)⟩
    exact hpw.forall hq hq' hne hrot hnear
  have him : sym.toFinset.image L = sym.toFinset := by
    apply Finset.eq_of_subset_of_card_le
    · intro x hx
      obtain ⟨q, hq, rfl⟩ := Finset.mem_image.1 hx
      exact List.mem_toFinset.2 (hL q (List.mem_toFinset.1 hq)).1
    · rw [Finset.card_image_of_injOn]
      intro q hq q' hq' e
      exact hinj q (List.mem_toFinset.1 hq) q' (List.mem_toFinset.1 hq') e
  conv_rhs => rw [← him]
  rw [Finset.sum_image]
  intro q hq q' hq' e
  exact hinj q (List.mem_toFinset.1 hq) q' (List.mem_toFinset.1 hq') e

/-- The displacements make the positions exactly symmetric. -/
theorem Fam.shift_exact (hf : Fam c rots κ sym G) (h : Sharp c rots κ) (hg : PointGroup rots) (hn : 0 < nAtoms c.species)
    (hsp : sp ∈ c.species) {p : Op ℝ} (hp : p ∈ sym) {b : Nat} (hb : b < sp.n) (i : Fin 3) :
    mulMV (castMat p.rot) (fun k => shift sym G sp b k) i = shift sym G sp (G p sp b) i - dev G p sp b i := by
  have hlen : 0 < sym.length := List.length_pos_of_mem (hf.identity h hg hn)
  have hN : (sym.length : ℝ) ≠ 0 := by exact_mod_cast hlen.ne'
  have hcard : sym.toFinset.card = sym.length := List.toFinset_card_of_nodup (hf.nodup h hg)
  obtain ⟨L, hL, hsum⟩ := hf.reindex h hg hn hp
  have e1 : mulMV (castMat p.rot) (fun k => shift sym G sp b k) i
      = ∑ op ∈ sym.toFinset, ∑ a ∈ Finset.range sp.n, if G op sp a = b then (1 / (sym.length : ℝ)) * mulMV (castMat p.rot) (dev G op sp a) i else 0 := by
    simp only [mulMV_apply, shift]
    rw [Finset.sum_comm (s := sym.toFinset), Finset.mul_sum, Finset.mul_sum, Finset.mul_sum, ← Finset.sum_add_distrib, ← Finset.sum_add_distrib]
    refine Finset.sum_congr rfl fun a _ => ?_
    rw [Finset.mul_sum, Finset.mul_sum, Finset.mul_sum, ← Finset.sum_add_distrib, ← Finset.sum_add_distrib]
    refine Finset.sum_congr rfl fun op _ => ?_
    split <;> ring
  have e2 : ∀ op ∈ sym.toFinset, ∑ a ∈ Finset.range sp.n, (if G op sp a = b then (1 / (sym.length : ℝ)) * mulMV (castMat p.rot) (dev G op sp a) i else 0)
      = (∑ a ∈ Finset.range sp.n, if G (L op) sp a = G p sp b then (1 / (sym.length : ℝ)) * dev G (L op) sp a i else 0)
        - (1 / (sym.length : ℝ)) * dev G p sp b i := by
    intro op ho
    have ho := List.mem_toFinset.1 ho
    obtain ⟨l1, l2, l3⟩ := hL op ho
    have hex := (hf.exact h hg hn hp ho l1 l2 l3 i).2 sp hsp
    have e3 : (1 / (sym.length : ℝ)) * dev G p sp b i
        = ∑ a ∈ Finset.range sp.n, if G op sp a = b then (1 / (sym.length : ℝ)) * dev G p sp b i else 0 := by
      have := hf.sum_hit h hg ho hsp hb
      calc _ = ((1 / (sym.length : ℝ)) * dev G p sp b i) * ∑ a ∈ Finset.range sp.n, (if G op sp a = b then (1 : ℝ) else 0) := by
            rw [this, mul_one]
        _ = _ := by
            rw [Finset.mul_sum]
            refine Finset.sum_congr rfl fun a _ => ?_
            split <;> simp
    rw [e3, ← Finset.sum_sub_distrib]
    refine Finset.sum_congr rfl fun a ha => ?_
    have ha := Finset.mem_range.1 ha
    by_cases hab : G op sp a = b
    · rw [if_pos hab, if_pos hab, if_pos (by rw [l3 sp hsp a ha, hab]), hex a ha, hab]; ring
    · rw [if_neg hab, if_neg hab, if_neg, sub_zero]
      intro hcon
      rw [l3 sp hsp a ha] at hcon
      exact hab (hf.inj h hg hp hsp (hf.lt op ho sp hsp a ha) hb hcon)
  rw [e1, Finset.sum_congr rfl e2, Finset.sum_sub_distrib]
  rw [hsum fun q => ∑ a ∈ Finset.range sp.n, if G q sp a = G p sp b then (1 / (sym.length : ℝ)) * dev G q sp a i else 0]
  rw [Finset.sum_const, hcard, nsmul_eq_mul]
  unfold shift
  rw [Finset.sum_comm]
  congr 1
  field_simp

theorem Fam.atoms (hf : Fam c rots κ sym G) (h : Sharp c rots κ) (hg : PointGroup rots) (hn : 0 < nAtoms c.species) (hm : MeshOk c)
    (hsp : sp ∈ c.species) :
    ∃ m x, mapSpecies c sym sp = .ok (m, x) ∧ AtomsOk sym sp.n x m ∧ (∀ a < sp.n, ∀ k, |x a k - sp.pos a k| ≤ c.thr / 11) ∧
      ∀ a < sp.n, ∀ q (hq : q < sym.length), admissible c sp sym[q].rot a (m a q) := by
  have hthr := h.thr_pos
  have hκ := h.kappa hg
  obtain ⟨m, x, e, hmm, hx⟩ := mapSpecies_spec hf h hg hm hsp
  have hsmall : ∀ a < sp.n, ∀ k, |x a k - sp.pos a k| ≤ c.thr / 11 := by
    intro a ha k
    rw [hx a k, add_sub_cancel_left]
    exact hf.shift_lt h hg hn hsp ha k
  refine ⟨m, x, e, ⟨fun a ha q hq => ?_, fun a ha q hq k => ?_, fun a ha b hb hab => ?_⟩, hsmall, fun a ha q hq => ?_⟩
  · rw [hmm a ha q hq]
    exact hf.lt _ (List.getElem_mem hq) sp hsp a ha
  · have ho := List.getElem_mem hq
    rw [hmm a ha q hq]
    obtain ⟨n, hn'⟩ := wrapHalf_int fun k => sym[q].applyReal (sp.pos a) k - sp.pos (G sym[q] sp a) k
    refine ⟨n k, ?_⟩
    have hd : dev G sym[q] sp a k = sym[q].applyReal (sp.pos a) k - sp.pos (G sym[q] sp a) k - n k := hn' k
    have hs := hf.shift_exact h hg hn hsp ho ha k
    have hxa : x a = fun k => sp.pos a k + shift sym G sp a k := funext fun k => hx a k
    have e1 : sym[q].applyReal (x a) k = sym[q].applyReal (sp.pos a) k + mulMV (castMat sym[q].rot) (fun k => shift sym G sp a k) k := by
      rw [hxa]
      simp only [Op.applyReal]
      rw [mulMV_add]
      ring
    rw [e1, hs, hd, hx]
    ring
  · choose n hab using hab
    refine h.separated sp hsp a ha b hb ⟨n, fun k => ?_⟩
    have h1 := abs_le.1 (hsmall a ha k)
    have h2 := abs_le.1 (hsmall b hb k)
    have h3 := hab k
    rw [abs_lt]
    constructor <;> nlinarith
  · rw [hmm a ha q hq]
    exact hf.adm _ (List.getElem_mem hq) sp hsp a ha

end
end Jdftx.FindGroup
