import Verif.Lemmas.TetraDos

/-! # Lemmas for the welding of eigenvalues -/
set_option linter.unusedSectionVars false

namespace Jdftx.Tetra

variable {K : Type} [Field K] [LinearOrder K] [IsStrictOrderedRing K]

/-- The clusters. -/
def groups (Etol : K) : Nat → List (K × Nat) → List (List (K × Nat))
  | 0, _ => []
  | _ + 1, [] => []
  | n + 1, p :: l => (p :: l.take (clusterLen Etol p.1 l)) :: groups Etol n (l.drop (clusterLen Etol p.1 l))

def mean (g : List (K × Nat)) : K := (g.map Prod.fst).sum / (g.length : K)

theorem weldFrom_eq (Etol : K) (n : Nat) : ∀ (l : List (K × Nat)) (eigs : List K),
    weldFrom Etol n l eigs = (groups Etol n l).foldl (fun eigs g => g.foldl (fun eigs c => eigs.set c.2 (mean g)) eigs) eigs := by
  induction n with
  | zero => intro l eigs; rfl
  | succ n ih =>
    intro l eigs
    cases l with
    | nil => rfl
    | cons p l => exact ih _ _

theorem groups_flatten (Etol : K) (n : Nat) : ∀ l : List (K × Nat), l.length ≤ n → (groups Etol n l).flatten = l := by
  induction n with
  | zero => intro l h; rw [List.length_eq_zero_iff.1 (Nat.le_zero.1 h)]; rfl
  | succ n ih =>
    intro l h
    cases l with
    | nil => rfl
    | cons p l =>
      rw [groups, List.flatten_cons, ih _ (by simp at h ⊢; omega)]
      simp

theorem cluster_sep (Etol : K) (l : List (K × Nat)) : ∀ p : K × Nat, (p :: l).Pairwise (fun a b => a.1 ≤ b.1) →
    ∀ a ∈ p :: l.take (clusterLen Etol p.1 l), ∀ b ∈ l.drop (clusterLen Etol p.1 l), a.1 + Etol < b.1 := by
  induction l with
  | nil => intro p _ a _ b hb; simp at hb
  | cons q l ih =>
    intro p hs a ha b hb
    have hp := List.pairwise_cons.1 hs
    rw [clusterLen] at ha hb
    by_cases hq : q.1 ≤ p.1 + Etol
    · rw [if_pos hq] at ha hb
      rw [List.take_succ_cons] at ha
      rw [List.drop_succ_cons] at hb
      rcases List.mem_cons.1 ha with rfl | ha
      · exact lt_of_le_of_lt (add_le_add_left (hp.1 q (by simp)) _) (ih q hp.2 q (by simp) b hb)
      · exact ih q hp.2 a ha b hb
    · rw [if_neg hq] at ha hb
      simp only [List.take_zero, List.mem_singleton] at ha
      rw [List.drop_zero] at hb
      subst ha
      rcases List.mem_cons.1 hb with rfl | hb
      · exact not_le.1 hq
      · exact lt_of_lt_of_le (not_le.1 hq) ((List.pairwise_cons.1 hp.2).1 b hb)

theorem cluster_chain (Etol : K) (l : List (K × Nat)) : ∀ p : K × Nat, (p :: l.take (clusterLen Etol p.1 l)).IsChain (fun a b => b.1 ≤ a.1 + Etol) := by
  induction l with
  | nil => intro p; simp
  | cons q l ih =>
    intro p
    rw [clusterLen]
    split
    · rename_i h
      rw [List.take_succ_cons]
      exact List.isChain_cons_cons.2 ⟨h, ih q⟩
    · simp

theorem groups_spec (Etol : K) (n : Nat) : ∀ l : List (K × Nat), l.Pairwise (fun a b => a.1 ≤ b.1) →
    (groups Etol n l).Pairwise (fun g g' => ∀ a ∈ g, ∀ b ∈ g', a.1 + Etol < b.1) ∧
      ∀ g ∈ groups Etol n l, g ≠ [] ∧ g.IsChain (fun a b => b.1 ≤ a.1 + Etol) ∧ g.Pairwise (fun a b => a.1 ≤ b.1) ∧ ∀ x ∈ g, x ∈ l := by
  induction n with
  | zero => intro l _; simp [groups]
  | succ n ih =>
    intro l hs
    cases l with
    | nil => simp [groups]
    | cons p l =>
      have hp := List.pairwise_cons.1 hs
      obtain ⟨h1, h2⟩ := ih (l.drop (clusterLen Etol p.1 l)) (hp.2.sublist (List.drop_sublist _ _))
      rw [groups]
      refine ⟨List.pairwise_cons.2 ⟨?_, h1⟩, ?_⟩
      · intro g hg a ha b hb
        exact cluster_sep Etol l p hs a ha b ((h2 g hg).2.2.2 b hb)
      · intro g hg
        rcases List.mem_cons.1 hg with rfl | hg
        · refine ⟨by simp, cluster_chain Etol l p, hs.sublist (List.Sublist.cons_cons _ (List.take_sublist _ _)), ?_⟩
          intro x hx
          rcases List.mem_cons.1 hx with rfl | hx
          · simp
          · exact List.mem_cons_of_mem _ (List.mem_of_mem_take hx)
        · obtain ⟨a, b, c, d⟩ := h2 g hg
          exact ⟨a, b, c, fun x hx => List.mem_cons_of_mem _ (List.mem_of_mem_drop (d x hx))⟩

theorem multiInsert_perm (p : K × Nat) (l : List (K × Nat)) : (multiInsert p l).Perm (p :: l) := by
  induction l with
  | nil => exact List.Perm.refl _
  | cons q l ih =>
    unfold multiInsert
    split
    · exact List.Perm.refl _
    · exact (ih.cons q).trans (List.Perm.swap p q l)

theorem multiInsert_sorted (p : K × Nat) (l : List (K × Nat)) (h : l.Pairwise (fun a b => a.1 ≤ b.1)) : (multiInsert p l).Pairwise (fun a b => a.1 ≤ b.1) := by
  induction l with
  | nil => simp [multiInsert]
  | cons q l ih =>
    have hq := List.pairwise_cons.1 h
    unfold multiInsert
    split
    · rename_i hlt
      refine List.pairwise_cons.2 ⟨?_, h⟩
      intro b hb
      rcases List.mem_cons.1 hb with rfl | hb
      · exact le_of_lt hlt
      · exact le_trans (le_of_lt hlt) (hq.1 b hb)
    · rename_i hlt
      refine List.pairwise_cons.2 ⟨?_, ih hq.2⟩
      intro b hb
      rcases List.mem_cons.1 ((multiInsert_perm p l).mem_iff.1 hb) with rfl | hb
      · exact not_lt.1 hlt
      · exact hq.1 b hb

theorem multi_fold (ps : List (K × Nat)) : ∀ m : List (K × Nat), m.Pairwise (fun a b => a.1 ≤ b.1) →
    (ps.foldl (fun m p => multiInsert p m) m).Pairwise (fun a b => a.1 ≤ b.1) ∧ (ps.foldl (fun m p => multiInsert p m) m).Perm (ps ++ m) := by
  induction ps with
  | nil => intro m h; exact ⟨h, List.Perm.refl _⟩
  | cons p ps ih =>
    intro m h
    obtain ⟨h1, h2⟩ := ih _ (multiInsert_sorted p m h)
    refine ⟨h1, h2.trans ?_⟩
    exact ((multiInsert_perm p m).append_left ps).trans List.perm_middle

theorem set_fold_length (g : List (K × Nat)) (v : K) : ∀ eigs : List K, (g.foldl (fun eigs c => eigs.set c.2 v) eigs).length = eigs.length := by
  induction g with
  | nil => intro eigs; rfl
  | cons c g ih => intro eigs; rw [List.foldl_cons, ih, List.length_set]

theorem set_fold_get (g : List (K × Nat)) (v : K) : ∀ (eigs : List K) (i : Nat), i < eigs.length →
    ((∃ c ∈ g, c.2 = i) → (g.foldl (fun eigs c => eigs.set c.2 v) eigs)[i]? = some v) ∧ ((∀ c ∈ g, c.2 ≠ i) → (g.foldl (fun eigs c => eigs.set c.2 v) eigs)[i]? = eigs[i]?) := by
  induction g with
  | nil => intro eigs i _; simp
  | cons c g ih =>
    intro eigs i hi
    obtain ⟨h1, h2⟩ := ih (eigs.set c.2 v) i (by simpa using hi)
    refine ⟨?_, ?_⟩
    · rintro ⟨d, hd, hdi⟩
      rw [List.foldl_cons]
      by_cases hex : ∃ c ∈ g, c.2 = i
      · exact h1 hex
      · push Not at hex
        rw [h2 hex]
        rcases List.mem_cons.1 hd with rfl | hd
        · rw [hdi, List.getElem?_set_self hi]
        · exact absurd hdi (hex d hd)
    · intro hno
      rw [List.foldl_cons, h2 (fun d hd => hno d (by simp [hd])), List.getElem?_set_ne (hno c (by simp))]

theorem groups_fold_get (gs : List (List (K × Nat))) : ∀ (eigs : List K), (gs.flatten.map Prod.snd).Nodup → ∀ i, i < eigs.length →
    ((gs.foldl (fun eigs g => g.foldl (fun eigs c => eigs.set c.2 (mean g)) eigs) eigs).length = eigs.length) ∧
    (∀ g ∈ gs, (∃ c ∈ g, c.2 = i) → (gs.foldl (fun eigs g => g.foldl (fun eigs c => eigs.set c.2 (mean g)) eigs) eigs)[i]? = some (mean g)) ∧
    ((∀ g ∈ gs, ∀ c ∈ g, c.2 ≠ i) → (gs.foldl (fun eigs g => g.foldl (fun eigs c => eigs.set c.2 (mean g)) eigs) eigs)[i]? = eigs[i]?) := by
  induction gs with
  | nil => intro eigs _ i _; simp
  | cons g gs ih =>
    intro eigs hnd i hi
    rw [List.flatten_cons, List.map_append, List.nodup_append] at hnd
    obtain ⟨n1, n2, n3⟩ := hnd
    have hlen := set_fold_length g (mean g) eigs
    obtain ⟨h0, h1, h2⟩ := ih (g.foldl (fun eigs c => eigs.set c.2 (mean g)) eigs) n2 i (by rw [hlen]; exact hi)
    obtain ⟨s1, s2⟩ := set_fold_get g (mean g) eigs i hi
    refine ⟨by rw [List.foldl_cons, h0, hlen], ?_, ?_⟩
    · intro g' hg' hex
      rw [List.foldl_cons]
      rcases List.mem_cons.1 hg' with rfl | hg'
      · rw [h2 ?_, s1 hex]
        intro g'' hg'' c hc hci
        obtain ⟨c', hc', hci'⟩ := hex
        exact n3 c'.2 (List.mem_map_of_mem hc') c.2 (List.mem_map_of_mem (List.mem_flatten.2 ⟨g'', hg'', hc⟩)) (by rw [hci', hci])
      · exact h1 g' hg' hex
    · intro hno
      rw [List.foldl_cons, h2 (fun g' hg' => hno g' (by simp [hg'])), s2 (hno g (by simp))]

theorem pairwise_or {α : Type} (R : α → α → Prop) (l : List α) (h : l.Pairwise R) : ∀ a ∈ l, ∀ b ∈ l, a ≠ b → R a b ∨ R b a := by
  induction l with
  | nil => intro a ha; simp at ha
  | cons x l ih =>
    have hx := List.pairwise_cons.1 h
    intro a ha b hb hne
    rcases List.mem_cons.1 ha with ha' | ha' <;> rcases List.mem_cons.1 hb with hb' | hb'
    · exact absurd (ha'.trans hb'.symm) hne
    · rw [ha']; exact Or.inl (hx.1 b hb')
    · rw [hb']; exact Or.inr (hx.1 a ha')
    · exact ih hx.2 a ha' b hb' hne

/-- Members of a group are linked. -/
theorem group_linked (eigs : List K) (Etol : K) (hE : 0 ≤ Etol) (g : List (K × Nat)) (hmem : ∀ c ∈ g, eigs[c.2]? = some c.1) :
    g.IsChain (fun a b => b.1 ≤ a.1 + Etol) → g.Pairwise (fun a b => a.1 ≤ b.1) → ∀ a ∈ g, ∀ b ∈ g, Linked eigs Etol a.2 b.2 := by
  have hsymm : ∀ i j, Linked eigs Etol i j → Linked eigs Etol j i := by
    intro i j h
    induction h with
    | refl => exact .refl
    | tail _ h2 ih =>
      obtain ⟨a, b, h1, h2, h3⟩ := h2
      exact Relation.ReflTransGen.head ⟨b, a, h2, h1, by rw [abs_sub_comm]; exact h3⟩ ih
  induction g with
  | nil => intro _ _ a ha; simp at ha
  | cons p g ih =>
    intro hc hs
    have hs' := List.pairwise_cons.1 hs
    cases g with
    | nil =>
      intro a ha b hb
      simp only [List.mem_singleton] at ha hb
      subst ha; subst hb; exact .refl
    | cons q g =>
      have hcc := List.isChain_cons_cons.1 hc
      have ih' := ih (fun c hc => hmem c (by simp [List.mem_cons.1 hc])) hcc.2 hs'.2
      have hpq : Linked eigs Etol p.2 q.2 := by
        refine Relation.ReflTransGen.single ⟨p.1, q.1, hmem p (by simp), hmem q (by simp), ?_⟩
        have := hs'.1 q (by simp)
        rw [abs_le]
        constructor <;> linarith [hcc.1]
      have key : ∀ b ∈ q :: g, Linked eigs Etol p.2 b.2 := fun b hb => hpq.trans (ih' q (by simp) b hb)
      intro a ha b hb
      rcases List.mem_cons.1 ha with ha' | ha'
      · rcases List.mem_cons.1 hb with hb' | hb'
        · rw [ha', hb']; exact .refl
        · rw [ha']; exact key b hb'
      · rcases List.mem_cons.1 hb with hb' | hb'
        · rw [hb']; exact hsymm _ _ (key a ha')
        · exact ih' a ha' b hb'

/-- The clusters of a list of eigenvalues: they hold every index once, are what is linked, and are apart from each other. -/
theorem weld_groups (Etol : K) (hE : 0 ≤ Etol) (eigs : List K) : ∃ gs : List (List (K × Nat)),
    gs.flatten.Perm eigs.zipIdx ∧ (∀ g ∈ gs, g ≠ []) ∧ gs.Pairwise (fun g g' => ∀ a ∈ g, ∀ b ∈ g', a.1 + Etol < b.1) ∧
      (∀ g ∈ gs, ∀ a ∈ g, ∀ j, Linked eigs Etol a.2 j ↔ ∃ b ∈ g, b.2 = j) ∧ (weld Etol eigs).length = eigs.length ∧ ∀ g ∈ gs, ∀ a ∈ g, (weld Etol eigs)[a.2]? = some (mean g) := by
  obtain ⟨hs, hperm⟩ := multi_fold eigs.zipIdx [] List.Pairwise.nil
  set m := eigs.zipIdx.foldl (fun m p => multiInsert p m) [] with hm
  rw [List.append_nil] at hperm
  obtain ⟨h1, h2⟩ := groups_spec Etol m.length m hs
  have hfl := groups_flatten Etol m.length m le_rfl
  have hmem : ∀ c ∈ m, eigs[c.2]? = some c.1 := fun c hc => List.mem_zipIdx_iff_getElem?.1 (hperm.mem_iff.1 hc)
  have hnd : ((groups Etol m.length m).flatten.map Prod.snd).Nodup := by
    rw [hfl, (hperm.map Prod.snd).nodup_iff]
    rw [List.zipIdx_map_snd]
    exact List.nodup_range'
  have hw : weld Etol eigs = (groups Etol m.length m).foldl (fun eigs g => g.foldl (fun eigs c => eigs.set c.2 (mean g)) eigs) eigs := by
    unfold weld
    simp only
    rw [weldFrom_eq]
  refine ⟨groups Etol m.length m, by rw [hfl]; exact hperm, fun g hg => (h2 g hg).1, h1, ?_, ?_, ?_⟩
  · intro g hg a ha j
    constructor
    · intro hl
      induction hl with
      | refl => exact ⟨a, ha, rfl⟩
      | @tail i j _ h ih =>
        obtain ⟨b, hb, hbj⟩ := ih
        obtain ⟨x, y, hx, hy, hxy⟩ := h
        have hbm := hmem b ((h2 g hg).2.2.2 b hb)
        rw [hbj, hx] at hbm
        have hbx : x = b.1 := Option.some.inj hbm
        have hjm : (y, j) ∈ m := hperm.mem_iff.2 (List.mem_zipIdx_iff_getElem?.2 hy)
        rw [← hfl] at hjm
        obtain ⟨g', hg', hjg⟩ := List.mem_flatten.1 hjm
        by_cases hgg : g = g'
        · exact ⟨(y, j), hgg ▸ hjg, rfl⟩
        · exfalso
          have hP := pairwise_or _ _ h1 g hg g' hg' hgg
          rw [abs_le] at hxy
          rcases hP with hP | hP
          · have := hP b hb (y, j) hjg
            simp only at this
            linarith [hxy.1, hxy.2]
          · have := hP (y, j) hjg b hb
            simp only at this
            linarith [hxy.1, hxy.2]
    · rintro ⟨b, hb, rfl⟩
      obtain ⟨_, b1, b2, b3⟩ := h2 g hg
      exact group_linked eigs Etol hE g (fun c hc => hmem c (b3 c hc)) b1 b2 a ha b hb
  · rw [hw]
    cases eigs with
    | nil =>
      have : m = [] := by rw [hm]; rfl
      rw [this]; rfl
    | cons x xs => exact (groups_fold_get _ (x :: xs) hnd 0 (by simp)).1
  · intro g hg a ha
    have := hmem a ((h2 g hg).2.2.2 a ha)
    have hi : a.2 < eigs.length := (List.getElem?_eq_some_iff.1 this).1
    rw [hw]
    exact (groups_fold_get _ eigs hnd a.2 hi).2.1 g hg ⟨a, ha, rfl⟩

end Jdftx.Tetra
