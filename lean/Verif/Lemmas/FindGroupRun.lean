import Verif.Lemmas.FindGroupAtoms

/-!
# Lemmas for C90: runs without assumptions on the crystal, and special cases
-/
namespace Jdftx.FindGroup
open Jdftx.M3 Jdftx.PL Jdftx.Sym
noncomputable section
open Classical

variable {c : Cfg} {sp : Species} {rot : Mat Int}

/-! ### Soundness of any successful run -/

theorem refineLoop_bound (hthr : 0 < c.thr) (hs : c.thr < 0.5) (hm : MeshOk c) (hsp : sp ∈ c.species) (t : V3 ℝ) (l : List Nat)
    (s s' : V3 ℝ) (h : refineLoop c sp rot t l s = .ok s') (k : Fin 3) : |s' k - s k| ≤ l.length * (c.thr / 4) := by
  induction l generalizing s with
  | nil =>
    simp only [refineLoop, Except.ok.injEq] at h
    subst h
    simp
  | cons a l ih =>
    obtain ⟨r, e, h1, _⟩ := lookup_atom hthr (hm sp hsp) (momOk c sp rot a) (fun k => mulMV (castMat rot) (sp.pos a) k + t k)
    unfold refineLoop at h
    simp only [e] at h
    cases r with
    | none => simp at h
    | some b =>
      simp only at h
      obtain ⟨_, hc, _⟩ := h1 b rfl
      have hn : NearLattice (c.thr / 4) fun k => sp.pos b k - (mulMV (castMat rot) (sp.pos a) k + t k) :=
        (coincide_near hthr hc).neg.eq fun k => by ring
      norm_num at hs
      have hw := wrapHalf_near (by linarith) hn k
      have hi := ih _ h
      rw [List.length_cons]
      push_cast
      have t1 := abs_le.1 hi
      have t2 := abs_lt.1 hw
      rw [abs_le]
      constructor <;> linarith

theorem refineSum_bound (hthr : 0 < c.thr) (hs : c.thr < 0.5) (hm : MeshOk c) (t : V3 ℝ) (l : List Species) (hl : ∀ sp ∈ l, sp ∈ c.species)
    (s s' : V3 ℝ) (h : refineSum c rot t l s = .ok s') (k : Fin 3) : |s' k - s k| ≤ nAtoms l * (c.thr / 4) := by
  induction l generalizing s with
  | nil =>
    simp only [refineSum, Except.ok.injEq] at h
    subst h
    simp [nAtoms]
  | cons sp l ih =>
    unfold refineSum at h
    cases e : refineLoop c sp rot t (List.range sp.n) s with
    | error x => rw [e] at h; simp at h
    | ok s1 =>
      rw [e] at h
      simp only at h
      have h1 := refineLoop_bound hthr hs hm (hl sp List.mem_cons_self) t _ _ _ e k
      rw [List.length_range] at h1
      have h2 := ih (fun sp hsp => hl sp (List.mem_cons_of_mem _ hsp)) _ h
      have e2 : ((nAtoms (sp :: l) : Nat) : ℝ) = (sp.n : ℝ) + (nAtoms l : ℝ) := by simp [nAtoms]
      rw [e2]
      have t1 := abs_le.1 h1
      have t2 := abs_le.1 h2
      rw [abs_le]
      constructor <;> linarith

theorem refine_bound (hthr : 0 < c.thr) (hs : c.thr < 0.5) (hm : MeshOk c) (hn : 0 < nAtoms c.species) (l : List (V3 ℝ)) (ops : List (Op ℝ))
    (h : refine c rot l = .ok ops) : ∀ op ∈ ops, op.rot = rot ∧ ∃ t ∈ l, ∀ k, |op.a k - t k| ≤ c.thr / 4 := by
  induction l generalizing ops with
  | nil =>
    simp only [refine, Except.ok.injEq] at h
    subst h
    simp
  | cons t l ih =>
    unfold refine at h
    cases e : refineSum c rot t c.species (fun _ => 0) with
    | error x => rw [e] at h; simp at h
    | ok s =>
      rw [e] at h
      cases e' : refine c rot l with
      | error x => rw [e'] at h; simp at h
      | ok ops' =>
        rw [e'] at h
        simp only [Except.ok.injEq] at h
        subst h
        intro op hop
        rcases List.mem_cons.1 hop with rfl | hop
        · refine ⟨rfl, t, List.mem_cons_self, fun k => ?_⟩
          have hb := refineSum_bound hthr hs hm t c.species (fun _ h => h) _ _ e k
          have hN : (0 : ℝ) < nAtoms c.species := by exact_mod_cast hn
          simp only [add_sub_cancel_left, sub_zero] at hb ⊢
          rw [abs_div, abs_of_pos hN, div_le_iff₀ hN]
          linarith
        · obtain ⟨e1, t', ht', hb⟩ := ih ops' e' op hop
          exact ⟨e1, t', List.mem_cons_of_mem _ ht', hb⟩

theorem withRot_sound (hthr : 0 < c.thr) (hs : c.thr < 0.5) (hm : MeshOk c) {sp0 : Species} {l : List Species}
    (hl : c.species = sp0 :: l) (h0 : 0 < sp0.n) (ops : List (Op ℝ)) (h : withRot c rot = .ok ops) :
    ∀ op ∈ ops, op.rot = rot ∧ MapsCrystal (c.thr / 2) c op := by
  have hn : 0 < nAtoms c.species := nAtoms_pos_of_mem (by rw [hl]; exact List.mem_cons_self) h0
  obtain ⟨r0, e0, e1⟩ := speciesLoop_first (rot := rot) hthr hs sp0 l h0
  rw [← hl] at e1
  unfold withRot at h
  rw [e1] at h
  intro op hop
  obtain ⟨er, t, ht, hb⟩ := refine_bound hthr hs hm hn _ _ h op hop
  refine ⟨er, fun s hs' a ha => ?_⟩
  rw [List.mem_filter] at ht
  obtain ⟨r, e, x, hx, hco⟩ := of_decide_eq_true ht.2 s hs' a ha
  obtain ⟨r', e', hc⟩ := candidates_spec (sp := s) (rot := rot) hthr hs a
  rw [e] at e'
  cases e'
  obtain ⟨b, hb', adm, rfl⟩ := hc.sound x hx
  refine ⟨b, hb', by rw [er]; exact adm, ?_⟩
  obtain ⟨n, hn1⟩ := coincide_near hthr hco
  obtain ⟨m, hm1⟩ := wrapHalf_int (offset s rot a b)
  refine ⟨fun k => n k - m k, fun k => ?_⟩
  have h1 := abs_lt.1 (hn1 k)
  have h2 := abs_le.1 (hb k)
  have h3 := hm1 k
  have e4 : op.applyReal (s.pos a) k - s.pos b k = op.a k - offset s rot a b k := by
    simp only [Op.applyReal, offset, er]; ring
  show |op.applyReal (s.pos a) k - s.pos b k - ((n k - m k : Int) : ℝ)| < _
  rw [e4, abs_lt]
  beta_reduce at h1
  rw [h3] at h1
  push_cast
  constructor <;> linarith

theorem findSpaceGroup_sound (hthr : 0 < c.thr) (hs : c.thr < 0.5) (hm : MeshOk c) {sp0 : Species} {l : List Species}
    (hl : c.species = sp0 :: l) (h0 : 0 < sp0.n) (rs : List (Mat Int)) (ops : List (Op ℝ)) (h : findSpaceGroup c rs = .ok ops) :
    ∀ op ∈ ops, op.rot ∈ rs ∧ MapsCrystal (c.thr / 2) c op := by
  induction rs generalizing ops with
  | nil =>
    simp only [findSpaceGroup, Except.ok.injEq] at h
    subst h
    simp
  | cons rot rs ih =>
    unfold findSpaceGroup at h
    cases e : withRot c rot with
    | error x => rw [e] at h; simp at h
    | ok o1 =>
      rw [e] at h
      cases e' : findSpaceGroup c rs with
      | error x => rw [e'] at h; simp at h
      | ok o2 =>
        rw [e'] at h
        simp only [Except.ok.injEq] at h
        subst h
        intro op hop
        rcases List.mem_append.1 hop with hop | hop
        · obtain ⟨er, hmm⟩ := withRot_sound hthr hs hm hl h0 o1 e op hop
          exact ⟨by rw [er]; exact List.mem_cons_self, hmm⟩
        · obtain ⟨er, hmm⟩ := ih o2 e' op hop
          exact ⟨List.mem_cons_of_mem _ er, hmm⟩

/-! ### Maps of any successful run -/

theorem opLoop_sound (hthr : 0 < c.thr) (hS : (∀ k, 0 < sp.S k) ∧ ∀ k, c.thr * sp.S k < 0.5) (N a1 : Nat) (l : List (Op ℝ × Nat))
    (s s' : MapState) (h : opLoop c sp N a1 l s = .ok s') :
    (∀ a q, a ≠ a1 → s'.atomMap a q = s.atomMap a q) ∧
    (∀ q, (∀ op, (op, q) ∉ l) → s'.atomMap a1 q = s.atomMap a1 q) ∧
    ∀ op q, (op, q) ∈ l → (∀ op', (op', q) ∈ l → op' = op) → s'.atomMap a1 q < sp.n ∧ Takes (c.thr / 4) sp op a1 (s'.atomMap a1 q) ∧
      isEquivalent c.thr (sp.con a1) (sp.con (s'.atomMap a1 q)) (rotCart c.R op.rot) := by
  induction l generalizing s with
  | nil =>
    simp only [opLoop, Except.ok.injEq] at h
    subst h
    exact ⟨fun _ _ _ => rfl, fun _ _ => rfl, by simp⟩
  | cons x l ih =>
    obtain ⟨op, q0⟩ := x
    obtain ⟨r, e, h1, _⟩ := lookup_atom hthr hS (fun _ => True) (fun k => mulMV (castMat op.rot) (sp.pos a1) k + op.a k)
    unfold opLoop at h
    simp only [e] at h
    cases r with
    | none => simp at h
    | some b =>
      simp only at h
      by_cases heq : isEquivalent c.thr (sp.con a1) (sp.con b) (rotCart c.R op.rot)
      · rw [if_pos heq] at h
        obtain ⟨hb, hc, _⟩ := h1 b rfl
        obtain ⟨g1, g2, g3⟩ := ih _ h
        refine ⟨fun a q ha => ?_, fun q hq => ?_, fun op' q hmem hu => ?_⟩
        · rw [g1 a q ha]; simp [ha]
        · rw [g2 q fun o ho => hq o (List.mem_cons_of_mem _ ho)]
          have : q ≠ q0 := by rintro rfl; exact hq op List.mem_cons_self
          simp [this]
        · by_cases hin : ∃ op'', (op'', q) ∈ l
          · obtain ⟨op'', hop''⟩ := hin
            have e1 := hu op'' (List.mem_cons_of_mem _ hop'')
            subst e1
            exact g3 op'' q hop'' fun o ho' => hu o (List.mem_cons_of_mem _ ho')
          · rcases List.mem_cons.1 hmem with heq' | hmem
            · cases heq'
              have e1 := g2 q0 fun o ho => hin ⟨o, ho⟩
              simp only [and_self, if_true] at e1
              rw [e1]
              exact ⟨hb, coincide_near hthr hc, heq⟩
            · exact absurd ⟨op', hmem⟩ hin
      · rw [if_neg heq] at h
        simp at h

theorem mapLoop_sound (hthr : 0 < c.thr) (hS : (∀ k, 0 < sp.S k) ∧ ∀ k, c.thr * sp.S k < 0.5) (sym : List (Op ℝ)) (l : List Nat)
    (hnd : l.Nodup) (s s' : MapState) (h : mapLoop c sp sym l s = .ok s') :
    (∀ a ∉ l, ∀ q, s'.atomMap a q = s.atomMap a q) ∧
    ∀ a ∈ l, ∀ q (hq : q < sym.length), s'.atomMap a q < sp.n ∧ Takes (c.thr / 4) sp sym[q] a (s'.atomMap a q) ∧
      isEquivalent c.thr (sp.con a) (sp.con (s'.atomMap a q)) (rotCart c.R sym[q].rot) := by
  induction l generalizing s with
  | nil =>
    simp only [mapLoop, Except.ok.injEq] at h
    subst h
    exact ⟨fun _ _ _ => rfl, by simp⟩
  | cons a1 l ih =>
    rw [List.nodup_cons] at hnd
    unfold mapLoop at h
    cases e : opLoop c sp sym.length a1 sym.zipIdx s with
    | error x => rw [e] at h; simp at h
    | ok s1 =>
      rw [e] at h
      simp only at h
      obtain ⟨f1, _, f3⟩ := opLoop_sound hthr hS _ _ _ _ _ e
      obtain ⟨g1, g2⟩ := ih hnd.2 _ h
      refine ⟨fun a ha q => ?_, fun a ha q hq => ?_⟩
      · rw [List.mem_cons, not_or] at ha
        rw [g1 a ha.2 q, f1 a q ha.1]
      · rcases List.mem_cons.1 ha with rfl | ha
        · rw [g1 a hnd.1 q]
          refine f3 sym[q] q (List.mem_zipIdx_iff_getElem?.2 (List.getElem?_eq_getElem hq)) fun op' hop' => ?_
          have := List.mem_zipIdx_iff_getElem?.1 hop'
          rw [List.getElem?_eq_getElem hq] at this
          simpa using this.symm
        · exact g2 a ha q hq

/-! ### Unused species -/

theorem withRot_unused {l : List Species} (hl : c.species = sp :: l) (h0 : sp.n = 0) : withRot c rot = .ok [⟨rot, vec 0 0 0⟩] := by
  unfold withRot
  rw [hl]
  simp [speciesLoop, atomLoop, h0]

theorem withRot_none (h : ∀ sp ∈ c.species, sp.n = 0) : withRot c rot = .ok [⟨rot, vec 0 0 0⟩] := by
  cases e : c.species with
  | nil => unfold withRot; rw [e]; rfl
  | cons sp l => exact withRot_unused e (h sp (by rw [e]; exact List.mem_cons_self))

theorem find_of_withRot (h : ∀ rot, withRot c rot = .ok [⟨rot, vec 0 0 0⟩]) (rs : List (Mat Int)) :
    findSpaceGroup c rs = .ok (rs.map fun rot => ⟨rot, vec 0 0 0⟩) := by
  induction rs with
  | nil => rfl
  | cons rot rs ih => unfold findSpaceGroup; rw [h, ih]; rfl

/-- `initAtomMaps` succeeds for a species when every image is near an atom and there are no constraints. -/
theorem opLoop_runs (hthr : 0 < c.thr) (hS : (∀ k, 0 < sp.S k) ∧ ∀ k, c.thr * sp.S k < 0.5)
    (hcon : ∀ a b M, isEquivalent c.thr (sp.con a) (sp.con b) M) (N a1 : Nat) (l : List (Op ℝ × Nat))
    (hl : ∀ x ∈ l, ∃ b < sp.n, Takes (c.thr / 11) sp x.1 a1 b) (s : MapState) : ∃ s', opLoop c sp N a1 l s = .ok s' := by
  induction l generalizing s with
  | nil => exact ⟨s, rfl⟩
  | cons x l ih =>
    obtain ⟨op, q0⟩ := x
    obtain ⟨b, hb, tk⟩ := hl (op, q0) List.mem_cons_self
    obtain ⟨r, e, _, h2⟩ := lookup_atom hthr hS (fun _ => True) (fun k => mulMV (castMat op.rot) (sp.pos a1) k + op.a k)
    obtain ⟨b', rfl⟩ := Option.ne_none_iff_exists'.1 (h2 b hb (near_coincide hthr tk) trivial)
    unfold opLoop
    simp only [e]
    rw [if_pos (hcon _ _ _)]
    exact ih (fun x hx => hl x (List.mem_cons_of_mem _ hx)) _

theorem mapLoop_runs (hthr : 0 < c.thr) (hS : (∀ k, 0 < sp.S k) ∧ ∀ k, c.thr * sp.S k < 0.5)
    (hcon : ∀ a b M, isEquivalent c.thr (sp.con a) (sp.con b) M) (sym : List (Op ℝ)) (l : List Nat)
    (hl : ∀ a ∈ l, ∀ op ∈ sym, ∃ b < sp.n, Takes (c.thr / 11) sp op a b) (s : MapState) : ∃ s', mapLoop c sp sym l s = .ok s' := by
  induction l generalizing s with
  | nil => exact ⟨s, rfl⟩
  | cons a l ih =>
    obtain ⟨s1, e⟩ := opLoop_runs hthr hS hcon sym.length a sym.zipIdx
      (fun x hx => hl a List.mem_cons_self x.1 (List.fst_mem_of_mem_zipIdx hx)) s
    unfold mapLoop
    rw [e]
    exact ih (fun a ha => hl a (List.mem_cons_of_mem _ ha)) s1

/-! ### A crystal with one atom -/

theorem withRot_single (hthr : 0 < c.thr) (hs : c.thr < 0.5) (hm : MeshOk c) (hl : c.species = [sp]) (h1 : sp.n = 1)
    (hadm : admissible c sp rot 0 0) : withRot c rot = .ok [⟨rot, wrapHalf (offset sp rot 0 0)⟩] := by
  have hcand : candidates c sp rot 0 = .ok [wrapHalf (offset sp rot 0 0)] := by
    unfold candidates
    rw [h1, List.range_one]
    unfold candLoop
    rw [if_pos hadm]
    obtain ⟨r, e, hr⟩ := lookup1 hthr hs [] (wrapHalf (offset sp rot 0 0))
    have : r = none := by
      by_contra hne
      obtain ⟨p, hp, _⟩ := hr.1 hne
      simp at hp
    simp only [e, this]
    rfl
  have hsl : speciesLoop c rot c.species none = .ok (some [wrapHalf (offset sp rot 0 0)]) := by
    rw [hl]
    unfold speciesLoop
    rw [h1, List.range_one]
    unfold atomLoop
    rw [hcand]
    simp [atomLoop, speciesLoop]
  unfold withRot
  rw [hsl]
  simp only
  have hmem : sp ∈ c.species := by rw [hl]; exact List.mem_cons_self
  obtain ⟨m, hmm⟩ := wrapHalf_int (offset sp rot 0 0)
  have hcoin : Coincide c.thr (fun k => mulMV (castMat rot) (sp.pos 0) k + wrapHalf (offset sp rot 0 0) k) (sp.pos 0) := by
    refine near_coincide hthr ⟨fun k => - m k, fun k => ?_⟩
    show |mulMV (castMat rot) (sp.pos 0) k + wrapHalf (offset sp rot 0 0) k - sp.pos 0 k - ((- m k : Int) : ℝ)| < _
    rw [hmm k]
    simp only [offset]
    push_cast
    rw [show mulMV (castMat rot) (sp.pos 0) k + (sp.pos 0 k - mulMV (castMat rot) (sp.pos 0) k - (m k : ℝ)) - sp.pos 0 k - -(m k : ℝ) = 0 by ring]
    rw [abs_zero]; positivity
  have hrl : refineSum c rot (wrapHalf (offset sp rot 0 0)) c.species (fun _ => 0) = .ok fun _ => 0 := by
    rw [hl]
    unfold refineSum
    rw [h1, List.range_one]
    obtain ⟨r, e, g1, g2⟩ := lookup_atom hthr (hm sp hmem) (momOk c sp rot 0) (fun k => mulMV (castMat rot) (sp.pos 0) k + wrapHalf (offset sp rot 0 0) k)
    obtain ⟨b, rfl⟩ := Option.ne_none_iff_exists'.1 (g2 0 (by omega) hcoin hadm.1)
    obtain ⟨hb, _, _⟩ := g1 b rfl
    have : b = 0 := by omega
    subst this
    unfold refineLoop
    simp only [e]
    simp only [refineLoop, refineSum, Except.ok.injEq]
    funext k
    rw [wrapHalf_eq (w := fun _ => 0) k (m k)]
    · simp
    · rw [hmm k]; simp only [offset]; ring
    · norm_num
  unfold refine
  rw [hrl]
  simp [refine]

theorem find_single (hthr : 0 < c.thr) (hs : c.thr < 0.5) (hm : MeshOk c) (hl : c.species = [sp]) (h1 : sp.n = 1)
    (rs : List (Mat Int)) (hadm : ∀ M ∈ rs, admissible c sp M 0 0) :
    findSpaceGroup c rs = .ok (rs.map fun M => ⟨M, wrapHalf (offset sp M 0 0)⟩) := by
  induction rs with
  | nil => rfl
  | cons M rs ih =>
    unfold findSpaceGroup
    rw [withRot_single hthr hs hm hl h1 (hadm M List.mem_cons_self), ih fun M hM => hadm M (List.mem_cons_of_mem _ hM)]
    rfl

end
end Jdftx.FindGroup
