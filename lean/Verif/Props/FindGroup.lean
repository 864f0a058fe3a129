import Verif.Lemmas.FindGroupRun

/-!
# C90: the symmetries found are exactly those of the crystal
-/
namespace Jdftx.FindGroup
open Jdftx.M3 Jdftx.PL Jdftx.Sym
noncomputable section
open Classical

/-- Detection of the space group. For a crystal that is not marginally symmetric, detection succeeds; the operations found (in the
order used afterwards, identity first) form a space group exactly, although the positions need only be symmetric within the
tolerance; each of them maps the crystal onto itself within a fraction of the tolerance, and every operation that does so even
within a multiple of the tolerance is found, exactly once up to lattice translations. -/
theorem C90_group (c : Cfg) (rots : List (Mat Int)) (κ : ℝ) (h : Sharp c rots κ) (hg : PointGroup rots) (hm : MeshOk c)
    (hu : FirstUsed c) (hat : ∃ sp ∈ c.species, 0 < sp.n) :
    ∃ ops, findSpaceGroup c rots = .ok ops ∧ IsSpaceGroup (sortSymmetries ops) ∧
      (sortSymmetries ops)[0]? = some Op.one ∧
      (∀ op ∈ sortSymmetries ops, op.rot ∈ rots ∧ MapsCrystal (c.thr / 11) c op) ∧
      (∀ op : Op ℝ, op.rot ∈ rots → MapsCrystal ((κ + 1) * c.thr / 4) c op →
        ∃ r ∈ sortSymmetries ops, (r.rot = op.rot ∧ NearLattice (3 * (κ + 1) * c.thr / 8) fun k => r.a k - op.a k) ∧
          ∀ r' ∈ sortSymmetries ops, r'.rot = op.rot ∧ (NearLattice (3 * (κ + 1) * c.thr / 8) fun k => r'.a k - op.a k) → r' = r) := by
  obtain ⟨sp0, l, hl, h0⟩ : ∃ sp l, c.species = sp :: l ∧ 0 < sp.n := by
    rcases hu with hu | hu
    · exact hu
    · obtain ⟨sp, hsp, hpos⟩ := hat
      rw [hu sp hsp] at hpos
      omega
  have hn : 0 < nAtoms c.species := nAtoms_pos_of_mem (by rw [hl]; exact List.mem_cons_self) h0
  obtain ⟨ops, G, e, hf0⟩ := find_fam h hg hm hl h0
  obtain ⟨hp, hs⟩ := sort_spec ops
  have hf := hf0.perm hp
  have hthr := h.thr_pos
  have hκ := h.kappa hg
  refine ⟨ops, e, hf.spaceGroup h hg hn, hs (hf0.identity h hg hn), fun op ho => ⟨hf.rot_mem op ho, fun sp hsp a ha =>
    ⟨_, hf.lt op ho sp hsp a ha, hf.adm op ho sp hsp a ha, hf.takes op ho sp hsp a ha⟩⟩, fun op hop hmaps => ?_⟩
  obtain ⟨r, hr, er, hnr⟩ := hf.complete op hop _ le_rfl hmaps
  refine ⟨r, hr, ⟨er, hnr.mono (by nlinarith)⟩, fun r' hr' ⟨er', hnr'⟩ => ?_⟩
  by_contra hne
  have hsymm : Std.Symm fun p q : Op ℝ => p.rot = q.rot → ¬NearLattice (3 * (κ + 1) * c.thr / 4) fun k => p.a k - q.a k :=
    ⟨fun p q hh e hn => hh e.symm (hn.neg.eq fun k => by ring)⟩
  refine hf.distinct.forall hr' hr hne (by rw [er', er]) (((hnr'.add hnr.neg).mono ?_).eq fun k => by ring)
  nlinarith

/-- Atoms. The atoms are then mapped onto each other by the operations as recorded, and moved by less than the tolerance to
positions that are exactly symmetric. (These are the assumptions under which symmetrisation of forces and densities is correct.) -/
theorem C90_atoms (c : Cfg) (rots : List (Mat Int)) (κ : ℝ) (h : Sharp c rots κ) (hg : PointGroup rots) (hm : MeshOk c)
    (hu : FirstUsed c) (hat : ∃ sp ∈ c.species, 0 < sp.n) :
    ∃ ops maps, findSpaceGroup c rots = .ok ops ∧ initAtomMaps c (sortSymmetries ops) c.species = .ok maps ∧
      List.Forall₂ (fun sp (r : (Nat → Nat → Nat) × (Nat → V3 ℝ)) => AtomsOk (sortSymmetries ops) sp.n r.2 r.1 ∧
        (∀ a < sp.n, ∀ k, |r.2 a k - sp.pos a k| ≤ c.thr / 11) ∧
        ∀ a < sp.n, ∀ q (hq : q < (sortSymmetries ops).length), admissible c sp (sortSymmetries ops)[q].rot a (r.1 a q)) c.species maps := by
  obtain ⟨sp0, l, hl, h0⟩ : ∃ sp l, c.species = sp :: l ∧ 0 < sp.n := by
    rcases hu with hu | hu
    · exact hu
    · obtain ⟨sp, hsp, hpos⟩ := hat
      rw [hu sp hsp] at hpos
      omega
  have hn : 0 < nAtoms c.species := nAtoms_pos_of_mem (by rw [hl]; exact List.mem_cons_self) h0
  obtain ⟨ops, G, e, hf0⟩ := find_fam h hg hm hl h0
  have hf := hf0.perm (sort_spec ops).1
  have key : ∀ l : List Species, (∀ sp ∈ l, sp ∈ c.species) → ∃ maps, initAtomMaps c (sortSymmetries ops) l = .ok maps ∧
      List.Forall₂ (fun sp (r : (Nat → Nat → Nat) × (Nat → V3 ℝ)) => AtomsOk (sortSymmetries ops) sp.n r.2 r.1 ∧
        (∀ a < sp.n, ∀ k, |r.2 a k - sp.pos a k| ≤ c.thr / 11) ∧
        ∀ a < sp.n, ∀ q (hq : q < (sortSymmetries ops).length), admissible c sp (sortSymmetries ops)[q].rot a (r.1 a q)) l maps := by
    intro l
    induction l with
    | nil => intro _; exact ⟨[], rfl, List.Forall₂.nil⟩
    | cons sp l ih =>
      intro hl'
      obtain ⟨maps, e1, hf1⟩ := ih fun sp hsp => hl' sp (List.mem_cons_of_mem _ hsp)
      obtain ⟨m, x, e2, h2⟩ := hf.atoms h hg hn hm (hl' sp List.mem_cons_self)
      refine ⟨(m, x) :: maps, ?_, List.Forall₂.cons h2 hf1⟩
      unfold initAtomMaps
      rw [e2, e1]
  obtain ⟨maps, e1, hf1⟩ := key c.species fun _ h => h
  exact ⟨ops, maps, e, e1, hf1⟩

/-- Without atoms the space group is the point group of the lattice, without offsets. -/
theorem C90_empty (c : Cfg) (rots : List (Mat Int)) (hg : PointGroup rots) (h : ∀ sp ∈ c.species, sp.n = 0) :
    ∃ ops, findSpaceGroup c rots = .ok ops ∧ IsSpaceGroup (sortSymmetries ops) ∧ (sortSymmetries ops)[0]? = some Op.one ∧
      ∀ op, op ∈ sortSymmetries ops ↔ op.rot ∈ rots ∧ op.a = vec 0 0 0 := by
  have e := find_of_withRot (fun rot => withRot_none (rot := rot) h) rots
  obtain ⟨hp, hs⟩ := sort_spec (rots.map fun rot => (⟨rot, vec 0 0 0⟩ : Op ℝ))
  have hmem : ∀ op : Op ℝ, op ∈ sortSymmetries (rots.map fun rot => ⟨rot, vec 0 0 0⟩) ↔ op.rot ∈ rots ∧ op.a = vec 0 0 0 := by
    intro op
    rw [hp.mem_iff, List.mem_map]
    constructor
    · rintro ⟨M, hM, rfl⟩; exact ⟨hM, rfl⟩
    · rintro ⟨h1, h2⟩; exact ⟨op.rot, h1, Op.ext' rfl h2.symm⟩
  have h00 : (vec 0 0 0 : V3 ℝ) = fun _ => 0 := by funext k; match k with | 0 | 1 | 2 => rfl
  refine ⟨_, e, ⟨⟨Op.one, (hmem _).2 ⟨hg.one, rfl⟩, rfl, fun k => ⟨0, by simp⟩⟩, fun p hp' q hq => ?_, fun p hp' => hg.unimodular _ ((hmem p).1 hp').1, ?_⟩,
    hs (List.mem_map.2 ⟨_, hg.one, rfl⟩), hmem⟩
  · obtain ⟨p1, p2⟩ := (hmem p).1 hp'
    obtain ⟨q1, q2⟩ := (hmem q).1 hq
    refine ⟨⟨mulMM p.rot q.rot, vec 0 0 0⟩, (hmem _).2 ⟨hg.mul _ p1 _ q1, rfl⟩, rfl, fun k => ⟨0, ?_⟩⟩
    simp only [Op.mul, p2, q2, h00, mulMV_apply]
    simp
  · refine (hp.pairwise_iff ?_).2 ?_
    · rintro p q hpq ⟨e1, e2⟩
      refine hpq ⟨e1.symm, fun k => ?_⟩
      obtain ⟨n, hn⟩ := e2 k
      exact ⟨-n, by rw [hn]; push_cast; ring⟩
    · rw [List.pairwise_map]
      exact hg.nodup.imp fun {a b} hne hs => hne hs.1

/-- Any run. Whether or not the crystal is marginal, when detection succeeds every operation found maps the crystal onto itself
within half the tolerance, including species, moments and constraints. -/
theorem C90_sound (c : Cfg) (hthr : 0 < c.thr) (hs : c.thr < 0.5) (hm : MeshOk c) (hu : FirstUsed c) (rots : List (Mat Int))
    (ops : List (Op ℝ)) (h : findSpaceGroup c rots = .ok ops) :
    ∀ op ∈ sortSymmetries ops, op.rot ∈ rots ∧ MapsCrystal (c.thr / 2) c op := by
  intro op hop
  rw [(sort_spec ops).1.mem_iff] at hop
  rcases hu with ⟨sp0, l, hl, h0⟩ | hu
  · exact findSpaceGroup_sound hthr hs hm hl h0 rots ops h op hop
  · rw [find_of_withRot (fun rot => withRot_none (rot := rot) hu) rots] at h
    cases h
    obtain ⟨M, hM, rfl⟩ := List.mem_map.1 hop
    refine ⟨hM, fun sp hsp a ha => ?_⟩
    rw [hu sp hsp] at ha
    omega

/-- Any run. Whatever the operations, if the atom maps are set up then each operation takes each atom to within a quarter of the
tolerance of the recorded atom, whose constraint is equivalent. -/
theorem C90_maps (c : Cfg) (hthr : 0 < c.thr) (hm : MeshOk c) (sym : List (Op ℝ)) (maps : List ((Nat → Nat → Nat) × (Nat → V3 ℝ)))
    (h : initAtomMaps c sym c.species = .ok maps) :
    List.Forall₂ (fun sp (r : (Nat → Nat → Nat) × (Nat → V3 ℝ)) => ∀ a < sp.n, ∀ q (hq : q < sym.length),
      r.1 a q < sp.n ∧ Takes (c.thr / 4) sp sym[q] a (r.1 a q) ∧
      isEquivalent c.thr (sp.con a) (sp.con (r.1 a q)) (rotCart c.R sym[q].rot)) c.species maps := by
  have key : ∀ l : List Species, (∀ sp ∈ l, sp ∈ c.species) → ∀ maps, initAtomMaps c sym l = .ok maps →
      List.Forall₂ (fun sp (r : (Nat → Nat → Nat) × (Nat → V3 ℝ)) => ∀ a < sp.n, ∀ q (hq : q < sym.length),
        r.1 a q < sp.n ∧ Takes (c.thr / 4) sp sym[q] a (r.1 a q) ∧
        isEquivalent c.thr (sp.con a) (sp.con (r.1 a q)) (rotCart c.R sym[q].rot)) l maps := by
    intro l
    induction l with
    | nil =>
      intro _ maps h
      simp only [initAtomMaps, Except.ok.injEq] at h
      subst h
      exact List.Forall₂.nil
    | cons sp l ih =>
      intro hl maps h
      unfold initAtomMaps at h
      cases e : mapSpecies c sym sp with
      | error x => rw [e] at h; simp at h
      | ok r =>
        rw [e] at h
        cases e' : initAtomMaps c sym l with
        | error x => rw [e'] at h; simp at h
        | ok rs =>
          rw [e'] at h
          simp only [Except.ok.injEq] at h
          subst h
          refine List.Forall₂.cons ?_ (ih (fun sp hsp => hl sp (List.mem_cons_of_mem _ hsp)) rs e')
          unfold mapSpecies at e
          cases e2 : mapLoop c sp sym (List.range sp.n) ⟨fun _ _ => 0, fun _ _ => 0⟩ with
          | error x => rw [e2] at e; simp at e
          | ok s =>
            rw [e2] at e
            simp only [Except.ok.injEq] at e
            subst e
            intro a ha q hq
            exact (mapLoop_sound hthr (hm sp (hl sp List.mem_cons_self)) sym _ List.nodup_range _ _ e2).2 a (List.mem_range.2 ha) q hq
  exact key c.species (fun _ h => h) maps h

/-- Manual or automatic, sorting only reorders the operations and puts the identity first if it is there. -/
theorem C90_sort (sym : List (Op ℝ)) : (sortSymmetries sym).Perm sym ∧ (Op.one ∈ sym → (sortSymmetries sym)[0]? = some Op.one) :=
  sort_spec sym

/-! ### A slightly distorted crystal meets the hypotheses -/

/-- Two atoms, at the origin and nearly at the centre of the cell. -/
def spNaCl : Species where
  n := 2
  pos := fun a => if a = 0 then fun _ => 0 else vec (1 / 2 + 1 / 1000000) (1 / 2) (1 / 2)
  mom := none
  con := fun _ => ⟨1, .none⟩
  S := vec 1 1 1

/-- Crystal with the default tolerance. -/
def cfgNaCl : Cfg := ⟨1 / 10000, diag 1 1 1, false, [spNaCl]⟩

/-- Identity and inversion. -/
def rotsInv : List (Mat Int) := [diag 1 1 1, diag (-1) (-1) (-1)]

theorem pg_inv : PointGroup rotsInv where
  one := List.mem_cons_self
  mul := by decide
  inv := by decide
  unimodular := by decide
  nodup := by decide

theorem adm_NaCl (M : Mat Int) (a b : Nat) : admissible cfgNaCl spNaCl M a b := by
  refine ⟨trivial, ?_⟩
  unfold isEquivalent
  simp [spNaCl, tagOf]

theorem mesh_NaCl : MeshOk cfgNaCl := by
  intro sp hsp
  have : sp = spNaCl := by simpa [cfgNaCl] using hsp
  subst this
  constructor <;> intro k <;> match k with | 0 | 1 | 2 => simp [spNaCl, cfgNaCl, vec] <;> norm_num

theorem pos_NaCl (a : Nat) (k : Fin 3) : ∃ (m : Int) (e : ℝ), spNaCl.pos a k = m / 2 + e ∧ 0 ≤ e ∧ e ≤ 1 / 1000000 := by
  by_cases ha : a = 0
  · exact ⟨0, 0, by simp [spNaCl, ha], le_rfl, by norm_num⟩
  · match k with
    | 0 => exact ⟨1, 1 / 1000000, by simp [spNaCl, ha, vec], by norm_num, le_rfl⟩
    | 1 => exact ⟨1, 0, by simp [spNaCl, ha, vec], le_rfl, by norm_num⟩
    | 2 => exact ⟨1, 0, by simp [spNaCl, ha, vec], le_rfl, by norm_num⟩

theorem half_int {m n : Int} {e : ℝ} (he : |e| ≤ 4 / 1000000) (h : |(m : ℝ) / 2 + e - n| < 3 / 10000) : m = 2 * n := by
  have h1 := abs_le.1 he
  have h2 := abs_lt.1 h
  have : (|m - 2 * n| : Int) < 1 := by
    have : |((m - 2 * n : Int) : ℝ)| < 1 := by
      push_cast
      rw [abs_lt]
      constructor <;> linarith
    exact_mod_cast this
  have := abs_lt.1 this
  omega

theorem sharp_NaCl : Sharp cfgNaCl rotsInv 1 where
  thr_pos := by norm_num [cfgNaCl]
  thr_small := by norm_num [cfgNaCl]
  rowSum := by
    intro M hM i
    rcases List.mem_cons.1 hM with rfl | hM
    · match i with | 0 | 1 | 2 => simp [diag, vec]
    · have := List.mem_singleton.1 hM
      subst this
      match i with | 0 | 1 | 2 => simp [diag, vec]
  separated := by
    intro sp hsp a ha b hb hn
    have : sp = spNaCl := by simpa [cfgNaCl] using hsp
    subst this
    have ha : a < 2 := ha
    have hb : b < 2 := hb
    obtain ⟨n, hn⟩ := hn
    have h1 := abs_lt.1 (hn 1)
    have hthr2 : (1 + 1) * cfgNaCl.thr = 1 / 5000 := by norm_num [cfgNaCl]
    rw [hthr2] at h1
    by_contra hne
    have hcase : (a = 0 ∧ b = 1) ∨ (a = 1 ∧ b = 0) := by omega
    have key : ∀ s : ℝ, (s = 1 / 2 ∨ s = -1 / 2) → -(1 / 5000) < s - n 1 → s - n 1 < 1 / 5000 → False := by
      intro s hs g1 g2
      rcases hs with rfl | rfl
      · have : (0 : ℝ) < n 1 ∧ (n 1 : ℝ) < 1 := ⟨by linarith, by linarith⟩
        have h2 : 0 < n 1 ∧ n 1 < 1 := by exact_mod_cast this
        omega
      · have : (-1 : ℝ) < n 1 ∧ (n 1 : ℝ) < 0 := ⟨by linarith, by linarith⟩
        have h2 : -1 < n 1 ∧ n 1 < 0 := by exact_mod_cast this
        omega
    rcases hcase with ⟨rfl, rfl⟩ | ⟨rfl, rfl⟩
    · refine key (spNaCl.pos 0 1 - spNaCl.pos 1 1) (.inr ?_) h1.1 h1.2
      simp [spNaCl, vec]; norm_num
    · refine key (spNaCl.pos 1 1 - spNaCl.pos 0 1) (.inl ?_) h1.1 h1.2
      simp [spNaCl, vec]
  kind_one := by
    intro sp hsp a _
    have : sp = spNaCl := by simpa [cfgNaCl] using hsp
    subst this
    exact adm_NaCl _ _ _
  kind_mul := by
    intro sp hsp M _ N _ a _ b _ d _ _ _
    have : sp = spNaCl := by simpa [cfgNaCl] using hsp
    subst this
    exact adm_NaCl _ _ _
  gap := by
    intro M hM sp hsp sp' hsp' a _ b _ a' _ b' _ _ _ hn
    have : sp = spNaCl := by simpa [cfgNaCl] using hsp
    subst this
    have : sp' = spNaCl := by simpa [cfgNaCl] using hsp'
    subst this
    obtain ⟨n, hn⟩ := hn
    refine ⟨n, fun k => ?_⟩
    have hnk := hn k
    obtain ⟨m1, e1, p1, q1, r1⟩ := pos_NaCl b k
    obtain ⟨m2, e2, p2, q2, r2⟩ := pos_NaCl a k
    obtain ⟨m3, e3, p3, q3, r3⟩ := pos_NaCl b' k
    obtain ⟨m4, e4, p4, q4, r4⟩ := pos_NaCl a' k
    have hrot : ∀ v : V3 ℝ, mulMV (castMat M) v k = v k ∨ mulMV (castMat M) v k = - v k := by
      intro v
      rcases List.mem_cons.1 hM with rfl | hM
      · left; rw [mulMV_one]
      · right
        have := List.mem_singleton.1 hM
        subst this
        rw [mulMV_apply]
        match k with | 0 | 1 | 2 => simp [castMat, diag, vec]
    have hM' : (∀ v : V3 ℝ, mulMV (castMat M) v k = v k) ∨ (∀ v : V3 ℝ, mulMV (castMat M) v k = - v k) := by
      rcases List.mem_cons.1 hM with rfl | hM
      · left; intro v; rw [mulMV_one]
      · right
        intro v
        have := List.mem_singleton.1 hM
        subst this
        rw [mulMV_apply]
        match k with | 0 | 1 | 2 => simp [castMat, diag, vec]
    norm_num [cfgNaCl] at hnk ⊢
    rcases hM' with hM' | hM'
    · simp only [hM', p1, p2, p3, p4] at hnk ⊢
      have e : (m1 : ℝ) / 2 + e1 - ((m2 : ℝ) / 2 + e2) - ((m3 : ℝ) / 2 + e3 - ((m4 : ℝ) / 2 + e4)) - n k
          = ((m1 - m2 - m3 + m4 : Int) : ℝ) / 2 + (e1 - e2 - e3 + e4) - n k := by push_cast; ring
      rw [e] at hnk ⊢
      have he : |e1 - e2 - e3 + e4| ≤ 4 / 1000000 := by rw [abs_le]; constructor <;> linarith
      have hm := half_int he (lt_trans hnk (by norm_num))
      rw [hm]
      push_cast
      rw [show (2 * (n k : ℝ)) / 2 + (e1 - e2 - e3 + e4) - n k = e1 - e2 - e3 + e4 by ring]
      exact lt_of_le_of_lt he (by norm_num)
    · simp only [hM', p1, p2, p3, p4] at hnk ⊢
      have e : (m1 : ℝ) / 2 + e1 - -((m2 : ℝ) / 2 + e2) - ((m3 : ℝ) / 2 + e3 - -((m4 : ℝ) / 2 + e4)) - n k
          = ((m1 + m2 - m3 - m4 : Int) : ℝ) / 2 + (e1 + e2 - e3 - e4) - n k := by push_cast; ring
      rw [e] at hnk ⊢
      have he : |e1 + e2 - e3 - e4| ≤ 4 / 1000000 := by rw [abs_le]; constructor <;> linarith
      have hm := half_int he (lt_trans hnk (by norm_num))
      rw [hm]
      push_cast
      rw [show (2 * (n k : ℝ)) / 2 + (e1 + e2 - e3 - e4) - n k = e1 + e2 - e3 - e4 by ring]
      exact lt_of_le_of_lt he (by norm_num)

theorem used_NaCl : FirstUsed cfgNaCl := .inl ⟨spNaCl, [], rfl, by simp [spNaCl]⟩

-- The distorted crystal: inversion is found, the operations are an exact group, and the atoms become exactly symmetric.
example : ∃ ops maps, findSpaceGroup cfgNaCl rotsInv = .ok ops ∧ initAtomMaps cfgNaCl (sortSymmetries ops) cfgNaCl.species = .ok maps :=
  let ⟨ops, maps, h1, h2, _⟩ := C90_atoms cfgNaCl rotsInv 1 sharp_NaCl pg_inv mesh_NaCl used_NaCl ⟨spNaCl, List.mem_cons_self, by simp [spNaCl]⟩
  ⟨ops, maps, h1, h2⟩

theorem inv_NaCl : MapsCrystal ((1 + 1) * cfgNaCl.thr / 4) cfgNaCl ⟨diag (-1) (-1) (-1), vec 0 0 0⟩ := by
  intro sp hsp a ha
  have : sp = spNaCl := by simpa [cfgNaCl] using hsp
  subst this
  have ha : a < 2 := ha
  have hcase : a = 0 ∨ a = 1 := by omega
  refine ⟨a, ha, adm_NaCl _ _ _, ?_⟩
  rcases hcase with rfl | rfl
  · refine ⟨vec 0 0 0, fun k => ?_⟩
    match k with | 0 | 1 | 2 => norm_num [Op.applyReal, mulMV_apply, castMat, diag, vec, spNaCl, cfgNaCl]
  · refine ⟨vec (-1) (-1) (-1), fun k => ?_⟩
    match k with | 0 | 1 | 2 => (simp [Op.applyReal, mulMV_apply, castMat, diag, vec, spNaCl, cfgNaCl]; norm_num [abs_lt])

-- Inversion is among the operations, with an offset that makes it an exact member of the group.
example : ∃ ops, findSpaceGroup cfgNaCl rotsInv = .ok ops ∧ IsSpaceGroup (sortSymmetries ops) ∧
    ∃ r ∈ sortSymmetries ops, r.rot = diag (-1) (-1) (-1) := by
  obtain ⟨ops, h1, h2, _, _, h5⟩ := C90_group cfgNaCl rotsInv 1 sharp_NaCl pg_inv mesh_NaCl used_NaCl
    ⟨spNaCl, List.mem_cons_self, by simp [spNaCl]⟩
  obtain ⟨r, hr, ⟨er, _⟩, _⟩ := h5 ⟨diag (-1) (-1) (-1), vec 0 0 0⟩ (by simp [rotsInv]) inv_NaCl
  exact ⟨ops, h1, h2, r, hr, er⟩

/-! ### Violations -/

/-- Species that is not used. -/
def spUnused : Species := ⟨0, fun _ _ => 0, none, fun _ => ⟨1, .none⟩, vec 1 1 1⟩

/-- Two atoms with opposite moments, exchanged by inversion. -/
def spAfm : Species where
  n := 2
  pos := fun a => if a = 0 then vec (1 / 5) 0 0 else vec (-1 / 5) 0 0
  mom := some fun a => if a = 0 then vec 0 0 1 else vec 0 0 (-1)
  con := fun _ => ⟨1, .none⟩
  S := vec 1 1 1

/-- The crystal with the unused species listed first. -/
def cfgAfm : Cfg := ⟨1 / 10000, diag 1 1 1, false, [spUnused, spAfm]⟩

/-- An unused species at the beginning of the list turns off the comparison with the crystal: every symmetry of the lattice is
reported, without offset. Here inversion is accepted although it exchanges atoms with opposite magnetic moments, and setting up
the atom maps does not notice. -/
theorem C90_unused_violation :
    (∀ (c : Cfg) (sp : Species) (l : List Species) (rots : List (Mat Int)), c.species = sp :: l → sp.n = 0 →
      findSpaceGroup c rots = .ok (rots.map fun rot => ⟨rot, vec 0 0 0⟩)) ∧
    ∃ ops maps, findSpaceGroup cfgAfm rotsInv = .ok ops ∧ initAtomMaps cfgAfm (sortSymmetries ops) cfgAfm.species = .ok maps ∧
      ∃ op ∈ sortSymmetries ops, ∀ δ, δ ≤ 1 / 10 → ¬MapsCrystal δ cfgAfm op := by
  have gen : ∀ (c : Cfg) (sp : Species) (l : List Species) (rots : List (Mat Int)), c.species = sp :: l → sp.n = 0 →
      findSpaceGroup c rots = .ok (rots.map fun rot => ⟨rot, vec 0 0 0⟩) :=
    fun c sp l rots hl h0 => find_of_withRot (fun rot => withRot_unused hl h0) rots
  refine ⟨gen, rotsInv.map fun rot => ⟨rot, vec 0 0 0⟩, ?_⟩
  have e := gen cfgAfm spUnused [spAfm] rotsInv rfl rfl
  have hthr : 0 < cfgAfm.thr := by norm_num [cfgAfm]
  have hperm := (sort_spec (rotsInv.map fun rot => (⟨rot, vec 0 0 0⟩ : Op ℝ))).1
  have hops : ∀ op ∈ sortSymmetries (rotsInv.map fun rot => (⟨rot, vec 0 0 0⟩ : Op ℝ)),
      (∀ v k, op.applyReal v k = v k) ∨ (∀ v k, op.applyReal v k = - v k) := by
    intro op hop
    rw [hperm.mem_iff] at hop
    simp only [rotsInv, List.map_cons, List.map_nil, List.mem_cons, List.not_mem_nil, or_false] at hop
    rcases hop with rfl | rfl
    · left
      intro v k
      simp only [Op.applyReal, mulMV_apply]
      match k with | 0 | 1 | 2 => simp [castMat, diag, vec]
    · right
      intro v k
      simp only [Op.applyReal, mulMV_apply]
      match k with | 0 | 1 | 2 => simp [castMat, diag, vec]
  have takes : ∀ a ∈ List.range spAfm.n, ∀ op ∈ sortSymmetries (rotsInv.map fun rot => (⟨rot, vec 0 0 0⟩ : Op ℝ)),
      ∃ b < spAfm.n, Takes (cfgAfm.thr / 11) spAfm op a b := by
    intro a ha op hop
    have ha : a < 2 := List.mem_range.1 ha
    rcases hops op hop with h | h
    · refine ⟨a, ha, (near_zero (by linarith)).eq fun k => ?_⟩
      rw [h]; ring
    · refine ⟨1 - a, by show 1 - a < 2; omega, (near_zero (by linarith)).eq fun k => ?_⟩
      rw [h]
      have : a = 0 ∨ a = 1 := by omega
      rcases this with rfl | rfl
      · match k with | 0 | 1 | 2 => simp [spAfm, vec] <;> norm_num
      · match k with | 0 | 1 | 2 => simp [spAfm, vec] <;> norm_num
  obtain ⟨s, es⟩ := mapLoop_runs hthr (sp := spAfm) (by
    constructor <;> intro k <;> match k with | 0 | 1 | 2 => simp [spAfm, cfgAfm, vec] <;> norm_num)
    (by intro a b M; unfold isEquivalent; simp [spAfm, tagOf]) _ (List.range spAfm.n) takes ⟨fun _ _ => 0, fun _ _ => 0⟩
  refine ⟨[(fun _ _ => 0, fun a k => spUnused.pos a k + 0), (s.atomMap, fun a k => spAfm.pos a k + s.datpos a k)], e, ?_,
    ⟨diag (-1) (-1) (-1), vec 0 0 0⟩, hperm.mem_iff.2 (by simp [rotsInv]), ?_⟩
  · have e1 : mapSpecies cfgAfm (sortSymmetries (rotsInv.map fun rot => (⟨rot, vec 0 0 0⟩ : Op ℝ))) spUnused
        = .ok (fun _ _ => 0, fun a k => spUnused.pos a k + 0) := rfl
    have e2 : mapSpecies cfgAfm (sortSymmetries (rotsInv.map fun rot => (⟨rot, vec 0 0 0⟩ : Op ℝ))) spAfm
        = .ok (s.atomMap, fun a k => spAfm.pos a k + s.datpos a k) := by
      unfold mapSpecies; rw [es]
    show initAtomMaps cfgAfm _ [spUnused, spAfm] = _
    unfold initAtomMaps
    rw [e1]
    unfold initAtomMaps
    rw [e2]
    rfl
  · intro δ hδ hmaps
    obtain ⟨b, hb, hadm, n, hn⟩ := hmaps spAfm (by simp [cfgAfm]) 0 (by simp [spAfm])
    have hb : b < 2 := hb
    have : b = 0 ∨ b = 1 := by omega
    rcases this with rfl | rfl
    · have h0 := abs_lt.1 (lt_of_lt_of_le (hn 0) hδ)
      have e0 : (⟨diag (-1) (-1) (-1), vec 0 0 0⟩ : Op ℝ).applyReal (spAfm.pos 0) 0 - spAfm.pos 0 0 = -2 / 5 := by
        simp [Op.applyReal, mulMV_apply, castMat, diag, vec, spAfm]; norm_num
      simp only [e0] at h0
      have : (-1 : ℝ) < n 0 ∧ (n 0 : ℝ) < 0 := ⟨by linarith [h0.2], by linarith [h0.1]⟩
      have h2 : -1 < n 0 ∧ n 0 < 0 := by exact_mod_cast this
      omega
    · have := hadm.1
      simp [momOk, spAfm, magMomEquivalent, momRot, cfgAfm, dot, vec] at this
      norm_num at this

/-- Quarter turn about the third axis, and its inverse. -/
def quarter : Mat Int := fun i => vec (vec 0 (-1) 0) (vec 1 0 0) (vec 0 0 1) i
/-- Its inverse. -/
def quarter' : Mat Int := fun i => vec (vec 0 1 0) (vec (-1) 0 0) (vec 0 0 1) i

/-- Fourfold rotations about the third axis. -/
def rotsC4 : List (Mat Int) := [diag 1 1 1, quarter, diag (-1) (-1) 1, quarter']

/-- One atom at a general position. -/
def spOne : Species := ⟨1, fun _ => vec (3 / 20) (3 / 10) 0, none, fun _ => ⟨1, .none⟩, vec 1 1 1⟩

/-- The crystal with this atom. -/
def cfgOne : Cfg := ⟨1 / 10000, diag 1 1 1, false, [spOne]⟩

theorem pg_C4 : PointGroup rotsC4 where
  one := List.mem_cons_self
  mul := by decide
  inv := by decide
  unimodular := by decide
  nodup := by decide

theorem len_zero {v : V3 ℝ} (h : ∀ k, v k = 0) : len v = 0 := by
  simp [len, dot, h]

theorem coord_le_len (v : V3 ℝ) (k : Fin 3) : |v k| ≤ len v := by
  unfold len
  rw [← Real.sqrt_sq_eq_abs]
  apply Real.sqrt_le_sqrt
  simp only [dot]
  match k with
  | 0 => nlinarith [sq_nonneg (v 1), sq_nonneg (v 2)]
  | 1 => nlinarith [sq_nonneg (v 0), sq_nonneg (v 2)]
  | 2 => nlinarith [sq_nonneg (v 0), sq_nonneg (v 1)]

/-- With an atom displaced, operations that bring the atom back to one of its periodic images are dropped: here all fourfold
rotations are found and leave the displaced atom in place up to a lattice vector, but the half turn is dropped while the quarter turns
are kept, so that the remaining operations are not a group. -/
theorem C90_perturbation_violation :
    ∃ ops, findSpaceGroup cfgOne rotsC4 = .ok ops ∧
      (∀ op ∈ ops, Takes (cfgOne.thr / 11) spOne op 0 0 ∧ mulMV (castMat op.rot) (vec 0 0 1) = (vec 0 0 1 : V3 ℝ)) ∧
      ¬IsSpaceGroup (atomFilter cfgOne.thr (spOne.pos 0) (vec 0 0 1) ops) := by
  have hmesh : MeshOk cfgOne := by
    intro sp hsp
    have : sp = spOne := by simpa [cfgOne] using hsp
    subst this
    constructor <;> intro k <;> match k with | 0 | 1 | 2 => simp [spOne, cfgOne, vec] <;> norm_num
  have hadm : ∀ M ∈ rotsC4, admissible cfgOne spOne M 0 0 := by
    intro M _
    refine ⟨trivial, ?_⟩
    unfold isEquivalent
    simp [spOne, tagOf]
  have hthr : 0 < cfgOne.thr := by norm_num [cfgOne]
  have e := find_single hthr (by norm_num [cfgOne]) hmesh rfl rfl rotsC4 hadm
  have hd : ∀ M ∈ rotsC4, mulMV (castMat M) (vec 0 0 1) = (vec 0 0 1 : V3 ℝ) := by
    intro M hM
    simp only [rotsC4, List.mem_cons, List.not_mem_nil, or_false] at hM
    funext k
    rw [mulMV_apply]
    rcases hM with rfl | rfl | rfl | rfl <;> match k with | 0 | 1 | 2 => simp [castMat, diag, quarter, quarter', vec]
  have hx : ∀ (M : Mat Int) (k : Fin 3), mulMV (castMat M) (spOne.pos 0) k + wrapHalf (offset spOne M 0 0) k - spOne.pos 0 k
      = -(Int.floor (0.5 + offset spOne M 0 0 k) : ℝ) := by
    intro M k
    simp only [wrapHalf, offset]
    ring
  refine ⟨_, e, fun op hop => ?_, fun hgrp => ?_⟩
  · obtain ⟨M, hM, rfl⟩ := List.mem_map.1 hop
    refine ⟨⟨fun k => -Int.floor (0.5 + offset spOne M 0 0 k), fun k => ?_⟩, hd M hM⟩
    have := hx M k
    simp only [Op.applyReal]
    rw [this]
    push_cast
    rw [sub_self, abs_zero]
    positivity
  · have hq : (⟨quarter, wrapHalf (offset spOne quarter 0 0)⟩ : Op ℝ) ∈ atomFilter cfgOne.thr (spOne.pos 0) (vec 0 0 1)
        (rotsC4.map fun M => ⟨M, wrapHalf (offset spOne M 0 0)⟩) := by
      unfold atomFilter
      rw [List.mem_filter]
      refine ⟨List.mem_map.2 ⟨quarter, by simp [rotsC4], rfl⟩, ?_⟩
      apply decide_eq_true
      constructor
      · rw [len_zero fun k => ?_]
        · exact not_lt.2 hthr.le
        · show mulMV (castMat quarter) (spOne.pos 0) k + wrapHalf (offset spOne quarter 0 0) k - spOne.pos 0 k = 0
          rw [hx]
          have : Int.floor (0.5 + offset spOne quarter 0 0 k) = 0 := by
            rw [Int.floor_eq_zero_iff]
            unfold offset
            rw [mulMV_apply]
            match k with | 0 | 1 | 2 => (simp [spOne, castMat, quarter, vec]; norm_num)
          rw [this]; simp
      · rw [len_zero fun k => ?_]
        · have : (0 : ℝ) ≤ len (vec 0 0 1) := Real.sqrt_nonneg _
          exact not_lt.2 (mul_nonneg this hthr.le)
        · show mulMV (castMat quarter) (vec 0 0 1) k - (vec 0 0 1 : V3 ℝ) k = 0
          rw [hd quarter (by simp [rotsC4])]
          ring
    obtain ⟨r, hr, er, _⟩ := hgrp.mul _ hq _ hq
    unfold atomFilter at hr
    rw [List.mem_filter] at hr
    obtain ⟨hr1, hr2⟩ := hr
    obtain ⟨M, hM, rfl⟩ := List.mem_map.1 hr1
    have hM2 : M = diag (-1) (-1) 1 := by
      have : M = mulMM quarter quarter := er
      rw [this]
      decide
    subst hM2
    have h1 := not_lt.1 (of_decide_eq_true hr2).1
    have h2 := le_trans (coord_le_len _ 1) h1
    beta_reduce at h2
    have h3 := hx (diag (-1) (-1) 1) 1
    have h4 : Int.floor (0.5 + offset spOne (diag (-1) (-1) 1) 0 0 1) = 1 := by
      rw [Int.floor_eq_iff]
      unfold offset
      rw [mulMV_apply]
      simp [spOne, castMat, diag, vec]
      norm_num
    rw [h3, h4] at h2
    norm_num [cfgOne] at h2

/-- Translations. -/
def wTrans : List (Op ℝ) :=
  [⟨diag 1 1 1, vec 0 0 0⟩, ⟨diag 1 1 1, vec (1 / 4) (-1 / 4) 0⟩, ⟨diag 1 1 1, vec (-1 / 2) (-1 / 2) 0⟩, ⟨diag 1 1 1, vec (-1 / 4) (1 / 4) 0⟩]

theorem mem_wTrans {op : Op ℝ} : op ∈ wTrans ↔ op = ⟨diag 1 1 1, vec 0 0 0⟩ ∨ op = ⟨diag 1 1 1, vec (1 / 4) (-1 / 4) 0⟩ ∨
    op = ⟨diag 1 1 1, vec (-1 / 2) (-1 / 2) 0⟩ ∨ op = ⟨diag 1 1 1, vec (-1 / 4) (1 / 4) 0⟩ := by
  simp [wTrans]

theorem mul_trans (a b : V3 ℝ) (k : Fin 3) : ((⟨diag 1 1 1, a⟩ : Op ℝ).mul ⟨diag 1 1 1, b⟩).a k = b k + a k := by
  simp only [Op.mul, mulMV_one]

theorem wTrans_group : IsSpaceGroup wTrans where
  one := ⟨⟨diag 1 1 1, vec 0 0 0⟩, by simp [wTrans], rfl, fun k => ⟨0, by simp [Op.one]⟩⟩
  unimodular := by
    intro p hp
    rcases mem_wTrans.1 hp with rfl | rfl | rfl | rfl <;> left <;> decide
  distinct := by
    have key : ∀ a b : V3 ℝ, (∃ k, ∀ n : Int, a k ≠ b k + n) → ¬SameOp (⟨diag 1 1 1, a⟩ : Op ℝ) ⟨diag 1 1 1, b⟩ := by
      rintro a b ⟨k, hk⟩ ⟨_, h⟩
      obtain ⟨n, hn⟩ := h k
      exact hk n hn
    have frac : ∀ (x : ℝ) (n : Int), (-1 < x ∧ x < 0) ∨ (0 < x ∧ x < 1) → x ≠ n := by
      rintro x n (⟨h1, h2⟩ | ⟨h1, h2⟩) rfl
      · have : -1 < n ∧ n < 0 := ⟨by exact_mod_cast h1, by exact_mod_cast h2⟩
        omega
      · have : 0 < n ∧ n < 1 := ⟨by exact_mod_cast h1, by exact_mod_cast h2⟩
        omega
    have key2 : ∀ a b : V3 ℝ, ((-1 < a 0 - b 0 ∧ a 0 - b 0 < 0) ∨ (0 < a 0 - b 0 ∧ a 0 - b 0 < 1)) →
        ¬SameOp (⟨diag 1 1 1, a⟩ : Op ℝ) ⟨diag 1 1 1, b⟩ :=
      fun a b h => key a b ⟨0, fun n hn => frac _ n h (by rw [hn]; ring)⟩
    unfold wTrans
    simp only [List.pairwise_cons, List.mem_cons, List.not_mem_nil, or_false, List.Pairwise.nil, and_true, false_imp_iff, implies_true]
    refine ⟨?_, ?_, ?_⟩
    · rintro q (rfl | rfl | rfl) <;> apply key2 <;> norm_num [vec]
    · rintro q (rfl | rfl) <;> apply key2 <;> norm_num [vec]
    · rintro q rfl; apply key2; norm_num [vec]
  mul := by
    have key : ∀ (a b c : V3 ℝ) (n : V3 Int), (⟨diag 1 1 1, c⟩ : Op ℝ) ∈ wTrans → (∀ k, c k = b k + a k + n k) →
        ∃ r ∈ wTrans, SameOp r ((⟨diag 1 1 1, a⟩ : Op ℝ).mul ⟨diag 1 1 1, b⟩) := by
      intro a b c n hc h
      refine ⟨_, hc, ?_, fun k => ⟨n k, ?_⟩⟩
      · show (diag 1 1 1 : Mat Int) = mulMM (diag 1 1 1) (diag 1 1 1)
        decide
      · rw [mul_trans]; exact h k
    have c0 : (⟨diag 1 1 1, vec 0 0 0⟩ : Op ℝ) ∈ wTrans := by simp [wTrans]
    have c1 : (⟨diag 1 1 1, vec (1 / 4) (-1 / 4) 0⟩ : Op ℝ) ∈ wTrans := by simp [wTrans]
    have c2 : (⟨diag 1 1 1, vec (-1 / 2) (-1 / 2) 0⟩ : Op ℝ) ∈ wTrans := by simp [wTrans]
    have c3 : (⟨diag 1 1 1, vec (-1 / 4) (1 / 4) 0⟩ : Op ℝ) ∈ wTrans := by simp [wTrans]
    intro p hp q hq
    rcases mem_wTrans.1 hp with rfl | rfl | rfl | rfl <;> rcases mem_wTrans.1 hq with rfl | rfl | rfl | rfl
    · exact key _ _ _ (vec 0 0 0) c0 fun k => by match k with | 0 | 1 | 2 => norm_num [vec]
    · exact key _ _ _ (vec 0 0 0) c1 fun k => by match k with | 0 | 1 | 2 => norm_num [vec]
    · exact key _ _ _ (vec 0 0 0) c2 fun k => by match k with | 0 | 1 | 2 => norm_num [vec]
    · exact key _ _ _ (vec 0 0 0) c3 fun k => by match k with | 0 | 1 | 2 => norm_num [vec]
    · exact key _ _ _ (vec 0 0 0) c1 fun k => by match k with | 0 | 1 | 2 => norm_num [vec]
    · exact key _ _ _ (vec (-1) 0 0) c2 fun k => by match k with | 0 | 1 | 2 => norm_num [vec]
    · exact key _ _ _ (vec 0 1 0) c3 fun k => by match k with | 0 | 1 | 2 => norm_num [vec]
    · exact key _ _ _ (vec 0 0 0) c0 fun k => by match k with | 0 | 1 | 2 => norm_num [vec]
    · exact key _ _ _ (vec 0 0 0) c2 fun k => by match k with | 0 | 1 | 2 => norm_num [vec]
    · exact key _ _ _ (vec 0 1 0) c3 fun k => by match k with | 0 | 1 | 2 => norm_num [vec]
    · exact key _ _ _ (vec 1 1 0) c0 fun k => by match k with | 0 | 1 | 2 => norm_num [vec]
    · exact key _ _ _ (vec 1 0 0) c1 fun k => by match k with | 0 | 1 | 2 => norm_num [vec]
    · exact key _ _ _ (vec 0 0 0) c3 fun k => by match k with | 0 | 1 | 2 => norm_num [vec]
    · exact key _ _ _ (vec 0 0 0) c0 fun k => by match k with | 0 | 1 | 2 => norm_num [vec]
    · exact key _ _ _ (vec 1 0 0) c1 fun k => by match k with | 0 | 1 | 2 => norm_num [vec]
    · exact key _ _ _ (vec 0 (-1) 0) c2 fun k => by match k with | 0 | 1 | 2 => norm_num [vec]

/-- In a field along periodic directions, translations are compared with the field as if it were uniform: a translation across the
field is kept although the applied potential is not invariant under it, and the operations kept need not be a group. -/
theorem C90_field_violation :
    IsSpaceGroup wTrans ∧ ¬IsSpaceGroup (fieldFilter (1 / 10000) (vec 0 0 0) (vec 1 1 0) wTrans) ∧
      ∃ op ∈ fieldFilter (1 / 10000) (vec 0 0 0) (vec 1 1 0) wTrans, ∃ x,
        wavePotential (vec 1 1 0) (op.applyReal x) ≠ wavePotential (vec 1 1 0) x := by
  have hfix : ∀ (v : V3 ℝ) k, v k - mulVM v (castMat (diag 1 1 1)) k = 0 := by
    intro v k
    match k with | 0 | 1 | 2 => simp [mulVM, castMat, diag, vec]
  have hin : (⟨diag 1 1 1, vec (1 / 4) (-1 / 4) 0⟩ : Op ℝ) ∈ fieldFilter (1 / 10000) (vec 0 0 0) (vec 1 1 0) wTrans := by
    unfold fieldFilter
    rw [List.mem_filter]
    refine ⟨by simp [wTrans], decide_eq_true ⟨?_, ?_, ?_⟩⟩
    · rw [len_zero (hfix _)]
      exact not_lt.2 (mul_nonneg (Real.sqrt_nonneg _) (by norm_num))
    · rw [len_zero (hfix _)]
      exact not_lt.2 (mul_nonneg (Real.sqrt_nonneg _) (by norm_num))
    · have : dot (vec (1 / 4) (-1 / 4) 0) (vec 1 1 0 : V3 ℝ) = 0 := by simp [dot, vec]; norm_num
      rw [this, abs_zero]
      exact not_lt.2 (mul_nonneg (Real.sqrt_nonneg _) (by norm_num))
  refine ⟨wTrans_group, fun hgrp => ?_, _, hin, vec (1 / 4) 0 0, ?_⟩
  · obtain ⟨r, hr, _, hr2⟩ := hgrp.mul _ hin _ hin
    unfold fieldFilter at hr
    rw [List.mem_filter] at hr
    obtain ⟨hr1, hr3⟩ := hr
    have h3 := not_lt.1 (of_decide_eq_true hr3).2.2
    obtain ⟨n, hn⟩ := hr2 0
    rw [mul_trans] at hn
    have hint : ∀ x : ℝ, ((-1 < x ∧ x < 0) ∨ (0 < x ∧ x < 1)) → x ≠ n := by
      rintro x (⟨h1, h2⟩ | ⟨h1, h2⟩) rfl
      · have : -1 < n ∧ n < 0 := ⟨by exact_mod_cast h1, by exact_mod_cast h2⟩
        omega
      · have : 0 < n ∧ n < 1 := ⟨by exact_mod_cast h1, by exact_mod_cast h2⟩
        omega
    rcases mem_wTrans.1 hr1 with rfl | rfl | rfl | rfl
    · exact hint (-1 / 2) (by norm_num) (by norm_num [vec] at hn ⊢; linarith)
    · exact hint (-1 / 4) (by norm_num) (by norm_num [vec] at hn ⊢; linarith)
    · have hl : len (vec 1 1 0 : V3 ℝ) ≤ 2 := by
        unfold len
        rw [Real.sqrt_le_left (by norm_num)]
        norm_num [dot, vec]
      have hd : dot (vec (-1 / 2) (-1 / 2) 0) (vec 1 1 0 : V3 ℝ) = -1 := by norm_num [dot, vec]
      rw [hd] at h3
      norm_num at h3
      linarith
    · exact hint (-3 / 4) (by norm_num) (by norm_num [vec] at hn ⊢; linarith)
  · have e1 : wavePotential (vec 1 1 0) (vec (1 / 4) 0 0) = -(1 / (2 * Real.pi)) := by
      unfold wavePotential
      simp only [Fin.sum_univ_three, vec]
      rw [show 2 * Real.pi * (1 / 4 : ℝ) = Real.pi / 2 by ring]
      simp
    have e2 : wavePotential (vec 1 1 0) ((⟨diag 1 1 1, vec (1 / 4) (-1 / 4) 0⟩ : Op ℝ).applyReal (vec (1 / 4) 0 0)) = 1 / (2 * Real.pi) := by
      unfold wavePotential
      simp only [Fin.sum_univ_three, Op.applyReal, mulMV_one, vec]
      rw [show 2 * Real.pi * (1 / 4 + 1 / 4 : ℝ) = Real.pi by ring, show 2 * Real.pi * (0 + -1 / 4 : ℝ) = -(Real.pi / 2) by ring]
      simp
      ring
    rw [e1, e2]
    have := Real.pi_pos
    have : 0 < 1 / (2 * Real.pi) := by positivity
    intro h
    linarith

/-- A uniform field along truncated directions only: when no operation is marginal, those kept are the ones that leave the field
unchanged, and they are again a space group. -/
theorem C90_field_ramp (thr : ℝ) (hthr : 0 < thr) (ramp : V3 ℝ) (sym : List (Op ℝ)) (hsym : IsSpaceGroup sym)
    (hsharp : ∀ op ∈ sym, ∀ k, len (fun k => ramp k - mulVM ramp (castMat op.rot) k) ≤ len ramp * thr → mulVM ramp (castMat op.rot) k = ramp k) :
    (∀ op, op ∈ fieldFilter thr ramp (vec 0 0 0) sym ↔ op ∈ sym ∧ mulVM ramp (castMat op.rot) = ramp) ∧
      IsSpaceGroup (fieldFilter thr ramp (vec 0 0 0) sym) := by
  have h0 : ∀ k, (vec 0 0 0 : V3 ℝ) k = 0 := by intro k; match k with | 0 | 1 | 2 => rfl
  have hmem : ∀ op, op ∈ fieldFilter thr ramp (vec 0 0 0) sym ↔ op ∈ sym ∧ mulVM ramp (castMat op.rot) = ramp := by
    intro op
    unfold fieldFilter
    rw [List.mem_filter, decide_eq_true_iff]
    constructor
    · rintro ⟨h1, h2, _⟩
      exact ⟨h1, funext fun k => hsharp op h1 k (not_lt.1 h2)⟩
    · rintro ⟨h1, h2⟩
      refine ⟨h1, ?_, ?_, ?_⟩
      · rw [len_zero fun k => by rw [h2]; ring]
        exact not_lt.2 (mul_nonneg (Real.sqrt_nonneg _) hthr.le)
      · rw [len_zero h0, len_zero fun k => ?_]
        · simp
        · simp only [mulVM, h0]
          match k with | 0 | 1 | 2 => simp
      · rw [len_zero h0]
        simp [dot, h0]
  refine ⟨hmem, ⟨?_, ?_, fun p hp => hsym.unimodular p ((hmem p).1 hp).1, hsym.distinct.sublist List.filter_sublist⟩⟩
  · obtain ⟨p, hp, h1, h2⟩ := hsym.one
    refine ⟨p, (hmem p).2 ⟨hp, ?_⟩, h1, h2⟩
    rw [h1]
    funext k
    simp only [Op.one]
    match k with | 0 | 1 | 2 => simp [mulVM, castMat, diag, vec]
  · intro p hp q hq
    obtain ⟨p1, p2⟩ := (hmem p).1 hp
    obtain ⟨q1, q2⟩ := (hmem q).1 hq
    obtain ⟨r, hr, e1, e2⟩ := hsym.mul p p1 q q1
    refine ⟨r, (hmem r).2 ⟨hr, ?_⟩, e1, e2⟩
    rw [e1]
    show mulVM ramp (castMat (mulMM p.rot q.rot)) = ramp
    have : mulVM ramp (castMat (mulMM p.rot q.rot)) = mulVM (mulVM ramp (castMat p.rot)) (castMat q.rot) := by
      funext k
      simp only [mulVM, castMat, mulMM]
      push_cast
      ring
    rw [this, p2, q2]

-- In a field along the third axis inversion is dropped, and what remains is a space group.
example : ∃ sym, IsSpaceGroup sym ∧ (⟨diag (-1) (-1) (-1), vec 0 0 0⟩ : Op ℝ) ∈ sym ∧
    IsSpaceGroup (fieldFilter (1 / 10000) (vec 0 0 1) (vec 0 0 0) sym) ∧
    (⟨diag (-1) (-1) (-1), vec 0 0 0⟩ : Op ℝ) ∉ fieldFilter (1 / 10000) (vec 0 0 1) (vec 0 0 0) sym := by
  obtain ⟨ops, _, hg, _, hmem⟩ := C90_empty ⟨1 / 10000, diag 1 1 1, false, []⟩ rotsInv pg_inv (by simp)
  have hv : ∀ k, mulVM (vec 0 0 1 : V3 ℝ) (castMat (diag (-1) (-1) (-1))) k = - (vec 0 0 1 : V3 ℝ) k := by
    intro k
    match k with | 0 | 1 | 2 => simp [mulVM, castMat, diag, vec]
  have hl : len (vec 0 0 1 : V3 ℝ) ≤ 1 := by
    unfold len
    rw [Real.sqrt_le_left (by norm_num)]
    norm_num [dot, vec]
  obtain ⟨h1, h2⟩ := C90_field_ramp (1 / 10000) (by norm_num) (vec 0 0 1) _ hg (by
    intro op hop k hle
    have hr := ((hmem op).1 hop).1
    simp only [rotsInv, List.mem_cons, List.not_mem_nil, or_false] at hr
    rcases hr with hr | hr
    · rw [hr]
      match k with | 0 | 1 | 2 => simp [mulVM, castMat, diag, vec]
    · rw [hr] at hle
      have := le_trans (coord_le_len _ 2) hle
      rw [hv] at this
      norm_num [vec] at this
      linarith)
  refine ⟨_, hg, (hmem _).2 ⟨by simp [rotsInv], rfl⟩, h2, fun hin => ?_⟩
  have h3 := congrFun ((h1 _).1 hin).2 2
  rw [hv] at h3
  norm_num [vec] at h3

end
end Jdftx.FindGroup
