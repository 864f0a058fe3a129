import Verif.Lemmas.ReduceKmesh

/-!
# C32: k-mesh reduction
-/
namespace Jdftx.RK
open Jdftx.M3 Jdftx.Kmap Jdftx.Kpts
noncomputable section
open Classical

theorem pk_unpack (t : Triple) (h1 : t.1 < 2 ^ 32) (h2 : t.2.2 < 2 ^ 31 - 1) (h3 : t.2.1 = 1 ∨ t.2.1 = -1) :
    kmapUnpack (pk t) = (BitVec.ofNat 64 t.1, t.2.1, BitVec.ofNat 32 t.2.2) := by
  unfold pk
  rw [C49_roundtrip]
  · rcases h3 with h | h <;> simp [h]
  · rw [BitVec.toNat_ofNat, Nat.mod_eq_of_lt (by omega)]; exact h1
  · rw [BitVec.toInt_eq_toNat_of_lt]
    · positivity
    · rw [BitVec.toNat_ofNat, Nat.mod_eq_of_lt (by omega)]; omega

theorem pk_le {t u : Triple} (h1 : t.1 < 2 ^ 32) (h2 : t.2.2 < 2 ^ 31 - 1) (g1 : u.1 < 2 ^ 32) (g2 : u.2.2 < 2 ^ 31 - 1)
    (h : (pk t).toNat ≤ (pk u).toNat) : t.1 ≤ u.1 := by
  unfold pk at h
  have a1 : (BitVec.ofNat 64 t.1).toNat = t.1 := by rw [BitVec.toNat_ofNat, Nat.mod_eq_of_lt (by omega)]
  have a2 : (BitVec.ofNat 32 t.2.2).toNat = t.2.2 := by rw [BitVec.toNat_ofNat, Nat.mod_eq_of_lt (by omega)]
  have b1 : (BitVec.ofNat 64 u.1).toNat = u.1 := by rw [BitVec.toNat_ofNat, Nat.mod_eq_of_lt (by omega)]
  have b2 : (BitVec.ofNat 32 u.2.2).toNat = u.2.2 := by rw [BitVec.toNat_ofNat, Nat.mod_eq_of_lt (by omega)]
  rw [kmapPack_toNat _ _ _ (by omega) (by omega), kmapPack_toNat _ _ _ (by omega) (by omega), a1, a2, b1, b2] at h
  split at h <;> split at h <;> omega

theorem pk_lt {t : Triple} (h1 : t.1 < 2 ^ 32) (h2 : t.2.2 < 2 ^ 31 - 1) : (pk t).toNat < (BitVec.allOnes 64).toNat := by
  unfold pk
  apply C49_valid_lt_unset
  · rw [BitVec.toNat_ofNat, Nat.mod_eq_of_lt (by omega)]; exact h1
  · rw [BitVec.toNat_ofNat, Nat.mod_eq_of_lt (by omega)]; exact h2

/-- The answer of the table for the image of a triple. -/
def answer (find : V3 ℝ → Res (Option Nat)) (qnums : List (QN ℝ)) (sym : List (Mat Int)) (t : Triple) : Option Nat :=
  match qnums[t.1]?, sym[t.2.2]? with
  | some q, some rot => match find (image t.2.1 q.k rot) with | .ok r => r | .error _ => none
  | _, _ => none

theorem findSpec_lookup (thr : ℝ) (hthr : 0 < thr) (S : V3 Int) (hS : ∀ k, 0 < S k) (hts : ∀ k, thr * S k < 0.5)
    (sym : List (Mat Int)) (qnums : List (QN ℝ)) :
    FindSpec (fun v => PL.lookup thr S (qnums.map QN.k) (fun _ => True) v) qnums sym
      (answer (fun v => PL.lookup thr S (qnums.map QN.k) (fun _ => True) v) qnums sym) := by
  intro t q rot hq hr
  obtain ⟨r, e, h1, _⟩ := PL.C30_lookup thr hthr S hS hts (qnums.map QN.k) (fun _ => True) (image t.2.1 q.k rot)
  have ha : answer (fun v => PL.lookup thr S (qnums.map QN.k) (fun _ => True) v) qnums sym t = r := by
    unfold answer; rw [hq, hr]; simp only [e]
  rw [ha]
  refine ⟨e, fun d hd => ?_⟩
  obtain ⟨p, hp, _⟩ := h1 d hd
  by_contra hc
  rw [List.getElem?_eq_none (by simp; omega)] at hp
  cases hp

theorem invertListInit_sign (u : Bool) (sym : List (Mat Int)) : ∀ i ∈ invertListInit u sym, i = 1 ∨ (u = true ∧ i = -1) := by
  intro i hi
  unfold invertListInit at hi
  simp only at hi
  split at hi
  · simp at hi; exact .inl hi
  · cases u
    · simp at hi; exact .inl hi
    · simp at hi; rcases hi with h | h
      · exact .inl h
      · exact .inr ⟨rfl, h⟩

theorem distinct_eq {qnums : List (QN ℝ)} (h : (qnums.map QN.k).Pairwise fun a b => ¬EquivK a b) {i j : Nat} {p q : QN ℝ}
    (hi : qnums[i]? = some p) (hj : qnums[j]? = some q) (he : EquivK p.k q.k) : i = j := by
  rw [List.pairwise_map, List.pairwise_iff_getElem] at h
  obtain ⟨hil, hi⟩ := List.getElem?_eq_some_iff.1 hi
  obtain ⟨hjl, hj⟩ := List.getElem?_eq_some_iff.1 hj
  rcases Nat.lt_trichotomy i j with hlt | heq | hlt
  · exact absurd (by rw [hi, hj]; exact he) (h i j hil hjl hlt)
  · exact heq
  · exact absurd (by rw [hi, hj]; exact EquivK.symm he) (h j i hjl hil hlt)

theorem answer_iff (thr : ℝ) (hthr : 0 < thr) (S : V3 Int) (hS : ∀ k, 0 < S k) (hts : ∀ k, thr * S k < 0.5)
    (u : Bool) (sym : List (Mat Int)) (qnums : List (QN ℝ)) (hd : Decisive thr u sym (qnums.map QN.k))
    (t : Triple) (q p : QN ℝ) (rot : Mat Int) (d : Nat) (hq : qnums[t.1]? = some q) (hr : sym[t.2.2]? = some rot)
    (hp : qnums[d]? = some p) (hinv : t.2.1 = 1 ∨ (u = true ∧ t.2.1 = -1)) :
    answer (fun v => PL.lookup thr S (qnums.map QN.k) (fun _ => True) v) qnums sym t = some d ↔ EquivK p.k (image t.2.1 q.k rot) := by
  obtain ⟨r, e, h1, h2⟩ := PL.C30_lookup thr hthr S hS hts (qnums.map QN.k) (fun _ => True) (image t.2.1 q.k rot)
  have ha : answer (fun v => PL.lookup thr S (qnums.map QN.k) (fun _ => True) v) qnums sym t = r := by
    unfold answer; rw [hq, hr]; simp only [e]
  rw [ha]
  have hσ : ((t.2.1 : Int) : ℝ) = 1 ∨ (u = true ∧ ((t.2.1 : Int) : ℝ) = -1) := by
    rcases hinv with h | ⟨hu, h⟩
    · left; rw [h]; simp
    · right; rw [h]; simp [hu]
  have mem : ∀ {i : Nat} {x : QN ℝ}, qnums[i]? = some x → x.k ∈ qnums.map QN.k := fun h =>
    List.mem_map_of_mem (List.mem_of_getElem? h)
  have hex : ∀ {i : Nat} {x : QN ℝ}, qnums[i]? = some x → PL.Coincide thr (image t.2.1 q.k rot) x.k → EquivK x.k (image t.2.1 q.k rot) := by
    intro i x hx hc
    rw [image_eq] at hc ⊢
    exact hd.exact q.k (mem hq) x.k (mem hx) _ hσ rot (List.mem_of_getElem? hr) hc
  constructor
  · intro h
    obtain ⟨x, hx, hc, _⟩ := h1 d h
    rw [List.getElem?_map, hp] at hx
    simp only [Option.map_some, Option.some.injEq] at hx
    rw [← hx] at hc
    exact hex hp hc
  · intro h
    cases hrr : r with
    | none =>
      exact absurd ⟨coincide_of_equiv thr hthr (EquivK.symm h), trivial⟩ (h2.1 hrr d p.k (by rw [List.getElem?_map, hp]; rfl))
    | some i =>
      obtain ⟨x, hx, hc, _⟩ := h1 i hrr
      rw [List.getElem?_map] at hx
      cases hqi : qnums[i]? with
      | none => rw [hqi] at hx; cases hx
      | some y =>
        rw [hqi] at hx
        simp only [Option.map_some, Option.some.injEq] at hx
        rw [← hx] at hc
        have := hex hqi hc
        rw [distinct_eq hd.distinct hqi hp (EquivK.trans this (EquivK.symm h))]

/-- (Partial: lists with equivalent points are excluded; see `C32_duplicate_violation`.)
Reduction of a mesh of distinct k-points by a group of rotations: it succeeds; every original point is the recorded image
(operation and optional inversion) of its reduced point; reduced points are original points, first of their orbit; no two are
related; each carries the total weight of its orbit; the total weight is unchanged; and a symmetry is reported as one of the mesh
exactly if it takes every point to a point of the mesh. -/
theorem C32_reduce_partial (thr : ℝ) (hthr : 0 < thr) (S : V3 Int) (hS : ∀ k, 0 < S k) (hts : ∀ k, thr * S k < 0.5)
    (nProcs : Nat) (hP : 0 < nProcs) (useInv : Bool) (sym : List (Mat Int)) (hg : IsGroup sym) (qnums : List (QN ℝ))
    (hn : qnums.length < 2 ^ 32) (hm : sym.length < 2 ^ 31) (hd : Decisive thr useInv sym (qnums.map QN.k)) :
    ∃ out, reduceKmesh thr S nProcs useInv sym qnums = .ok out ∧
      -- every original point is recovered from its reduced point
      out.kmap.length = qnums.length ∧
      (∀ (d : Nat) (p : QN ℝ) (e : BitVec 64), qnums[d]? = some p → out.kmap[d]? = some e →
        ∃ q rot, out.qRed[(kmapUnpack e).1.toNat]? = some q ∧ sym[(kmapUnpack e).2.2.toNat]? = some rot ∧
          (kmapUnpack e).2.1 ∈ out.invertList ∧ ((kmapUnpack e).2.1 = 1 ∨ (useInv = true ∧ (kmapUnpack e).2.1 = -1)) ∧
          EquivK p.k (fun c => ((kmapUnpack e).2.1 : ℝ) * mulVM q.k (castMat rot) c)) ∧
      -- reduced points are the first points of their orbits, with the orbit's weight
      (∀ q ∈ out.qRed, ∃ (s : Nat) (p : QN ℝ), qnums[s]? = some p ∧ q.k = p.k ∧
        (∀ (d : Nat) (p' : QN ℝ), qnums[d]? = some p' → Related useInv sym p.k p'.k → s ≤ d) ∧
        q.weight = ((qnums.filter fun p' => decide (Related useInv sym p.k p'.k)).map QN.weight).sum) ∧
      -- no two reduced points are related
      out.qRed.Pairwise (fun q q' => ¬Related useInv sym q.k q'.k) ∧
      -- total weight
      (out.qRed.map QN.weight).sum = (qnums.map QN.weight).sum ∧
      -- symmetries of the mesh
      out.isSym.length = sym.length ∧
      (∀ (i : Nat) (b : Bool) (rot : Mat Int), out.isSym[i]? = some b → sym[i]? = some rot →
        (b = true ↔ ∀ p ∈ qnums, ∃ p' ∈ qnums, EquivK p'.k (mulVM p.k (castMat rot)))) := by
  have hF := findSpec_lookup thr hthr S hS hts sym qnums
  have hA := answer_iff thr hthr S hS hts useInv sym qnums hd
  generalize hFe : answer (fun v => PL.lookup thr S (qnums.map QN.k) (fun _ => True) v) qnums sym = F at hF hA
  obtain ⟨m, em, hmin, hsym⟩ := reducedMaps_spec hF (invertListInit useInv sym) nProcs hP
  have hsign := invertListInit_sign useInv sym
  -- facts about valid triples
  have getQ : ∀ {i : Nat}, i < qnums.length → ∃ q, qnums[i]? = some q := fun h => ⟨_, List.getElem?_eq_getElem h⟩
  have getR : ∀ {i : Nat}, i < sym.length → ∃ q, sym[i]? = some q := fun h => ⟨_, List.getElem?_eq_getElem h⟩
  have relOf : ∀ (t : Triple), AllT qnums sym (invertListInit useInv sym) t → ∀ d p q, qnums[d]? = some p → qnums[t.1]? = some q →
      F t = some d → Related useInv sym q.k p.k := by
    intro t ht d p q hp hq hf
    obtain ⟨rot, hr⟩ := getR ht.2.2
    rw [hA t q p rot d hq hr hp (hsign _ ht.2.1)] at hf
    exact (related_iff_loop useInv sym hg _ _).2 ⟨t.2.1, ht.2.1, rot, List.mem_of_getElem? hr, hf⟩
  have ofRel : ∀ s d p q, qnums[d]? = some p → qnums[s]? = some q → Related useInv sym q.k p.k →
      ∃ t, AllT qnums sym (invertListInit useInv sym) t ∧ t.1 = s ∧ F t = some d := by
    intro s d p q hp hq hrel
    obtain ⟨inv, hinv, rot, hr, he⟩ := (related_iff_loop useInv sym hg _ _).1 hrel
    obtain ⟨i, hi, hri⟩ := List.mem_iff_getElem.1 hr
    have hsl : s < qnums.length := (List.getElem?_eq_some_iff.1 hq).1
    refine ⟨(s, inv, i), ⟨hsl, hinv, hi⟩, rfl, ?_⟩
    exact (hA (s, inv, i) q p rot d hq (by rw [List.getElem?_eq_getElem hi, hri]) hp (hsign _ hinv)).2 he
  -- the entry of each destination
  have bound : ∀ t : Triple, AllT qnums sym (invertListInit useInv sym) t → t.1 < 2 ^ 32 ∧ t.2.2 < 2 ^ 31 - 1 ∧ (t.2.1 = 1 ∨ t.2.1 = -1) := by
    intro t ht
    obtain ⟨h1, h2, h3⟩ := ht
    refine ⟨by omega, by omega, ?_⟩
    rcases hsign _ h2 with h | h
    · exact .inl h
    · exact .inr h.2
  have entry : ∀ d p, qnums[d]? = some p → ∃ t, AllT qnums sym (invertListInit useInv sym) t ∧ F t = some d ∧ m.kmap[d]? = some (pk t) ∧
      ∀ u, AllT qnums sym (invertListInit useInv sym) u → F u = some d → t.1 ≤ u.1 := by
    intro d p hp
    have hdl : d < m.kmap.length := by rw [hmin.1]; exact (List.getElem?_eq_some_iff.1 hp).1
    obtain ⟨h1, h2⟩ := hmin.2 d _ (List.getElem?_eq_getElem hdl)
    obtain ⟨t0, ht0, _, hf0⟩ := ofRel d d p p hp hp (Related.refl hg _)
    rcases h1 with h1 | ⟨t, ht, hf, h1⟩
    · have := h2 t0 ht0 hf0
      rw [h1] at this
      have := pk_lt (bound t0 ht0).1 (bound t0 ht0).2.1
      omega
    · refine ⟨t, ht, hf, by rw [List.getElem?_eq_getElem hdl, h1], fun u hu hfu => ?_⟩
      have := h2 u hu hfu
      rw [h1] at this
      exact pk_le (bound t ht).1 (bound t ht).2.1 (bound u hu).1 (bound u hu).2.1 this
  have srcE : ∀ d t, AllT qnums sym (invertListInit useInv sym) t → m.kmap[d]? = some (pk t) → srcOf m.kmap d = t.1 := by
    intro d t ht h
    unfold srcOf
    rw [List.getD_eq_getElem?_getD, h, Option.getD_some, pk_unpack t (bound t ht).1 (bound t ht).2.1 (bound t ht).2.2]
    have := (bound t ht).1
    simp only [BitVec.toNat_ofNat]
    exact Nat.mod_eq_of_lt (by omega)
  have srcF : ∀ d p, qnums[d]? = some p → ∃ q, qnums[srcOf m.kmap d]? = some q ∧ Related useInv sym q.k p.k ∧
      ∀ s q', qnums[s]? = some q' → Related useInv sym q'.k p.k → srcOf m.kmap d ≤ s := by
    intro d p hp
    obtain ⟨t, ht, hf, hk, hmn⟩ := entry d p hp
    rw [srcE d t ht hk]
    obtain ⟨q, hq⟩ := getQ ht.1
    refine ⟨q, hq, relOf t ht d p q hp hq hf, fun s q' hq' hrel => ?_⟩
    obtain ⟨u, hu, rfl, hfu⟩ := ofRel s d p q' hp hq' hrel
    exact hmn u hu hfu
  have idem : ∀ d p, qnums[d]? = some p → srcOf m.kmap (srcOf m.kmap d) = srcOf m.kmap d := by
    intro d p hp
    obtain ⟨q, hq, hr, hmn⟩ := srcF d p hp
    obtain ⟨q2, hq2, hr2, hmn2⟩ := srcF _ q hq
    exact le_antisymm (hmn2 _ q hq (Related.refl hg _)) (hmn _ q2 hq2 (Related.trans hg hr2 hr))
  have srcRel : ∀ d p s q, qnums[d]? = some p → qnums[s]? = some q → srcOf m.kmap s = s →
      (srcOf m.kmap d = s ↔ Related useInv sym q.k p.k) := by
    intro d p s q hp hq hs
    obtain ⟨q1, hq1, hr1, hmn1⟩ := srcF d p hp
    constructor
    · intro h
      rw [h, hq] at hq1
      injection hq1 with hq1
      rw [hq1]; exact hr1
    · intro h
      have h1 : srcOf m.kmap d ≤ s := hmn1 s q hq h
      obtain ⟨q2, hq2, hr2, hmn2⟩ := srcF s q hq
      have h2 := hmn2 _ q1 hq1 (Related.trans hg hr1 (Related.symm hg h))
      omega
  -- keys
  obtain ⟨ksort, kmem⟩ := sourceKeys_spec m.kmap
  have kmem' : ∀ x, x ∈ sourceKeys m.kmap ↔ ∃ d, d < qnums.length ∧ x = srcOf m.kmap d := by
    intro x
    rw [kmem]
    constructor
    · rintro ⟨e, he, rfl⟩
      obtain ⟨d, hdl, rfl⟩ := List.mem_iff_getElem.1 he
      refine ⟨d, by rw [← hmin.1]; exact hdl, ?_⟩
      unfold srcOf
      rw [List.getD_eq_getElem?_getD, List.getElem?_eq_getElem hdl]; rfl
    · rintro ⟨d, hdl, rfl⟩
      have hdl' : d < m.kmap.length := by rw [hmin.1]; exact hdl
      refine ⟨m.kmap[d], List.getElem_mem hdl', ?_⟩
      unfold srcOf
      rw [List.getD_eq_getElem?_getD, List.getElem?_eq_getElem hdl']; rfl
  have keyF : ∀ s ∈ sourceKeys m.kmap, ∃ q, qnums[s]? = some q ∧ srcOf m.kmap s = s := by
    intro s hs
    obtain ⟨d, hdl, rfl⟩ := (kmem' s).1 hs
    obtain ⟨p, hp⟩ := getQ hdl
    obtain ⟨q, hq, _⟩ := srcF d p hp
    exact ⟨q, hq, idem d p hp⟩
  have knd : (sourceKeys m.kmap).Nodup := ksort.imp (fun h => by omega)
  obtain ⟨l0, el0, ll0, hl0⟩ := pickSources_ok qnums (sourceKeys m.kmap) (fun s hs => by
    obtain ⟨q, hq, _⟩ := keyF s hs
    exact (List.getElem?_eq_some_iff.1 hq).1)
  obtain ⟨out, eo, lo, ho⟩ := accumulate_spec (sourceKeys m.kmap) qnums m.kmap hmin.1 (fun d hdl => (kmem' _).2 ⟨d, hdl, rfl⟩)
    qnums.length 0 (by omega) l0 ll0
  simp only [List.drop_zero] at eo
  have out_eq : out = (sourceKeys m.kmap).map fun s => (⟨(qnums.getD s ⟨fun _ => 0, 0⟩).k,
      ∑ d ∈ Finset.range qnums.length, if srcOf m.kmap d = s then wOf qnums d else 0⟩ : QN ℝ) := by
    apply List.ext_getElem?
    intro r
    rw [List.getElem?_map]
    by_cases hr : r < (sourceKeys m.kmap).length
    · obtain ⟨s, hs⟩ : ∃ s, (sourceKeys m.kmap)[r]? = some s := ⟨_, List.getElem?_eq_getElem hr⟩
      obtain ⟨q, hq, hss⟩ := keyF s (List.mem_of_getElem? hs)
      have hql : s < qnums.length := (List.getElem?_eq_some_iff.1 hq).1
      rw [ho r q (by rw [hl0 r s hs, hq]), hs]
      simp only [Option.map_some, Option.some.injEq]
      have hgd : qnums.getD s ⟨fun _ => 0, 0⟩ = q := by rw [List.getD_eq_getElem?_getD, hq]; rfl
      rw [hgd]
      congr 1
      have hw : q.weight = ∑ d ∈ Finset.range qnums.length, if d = s then wOf qnums d else 0 := by
        rw [Finset.sum_ite_eq', if_pos (Finset.mem_range.2 hql)]
        unfold wOf; rw [hgd]
      rw [hw, ← Nat.Ico_zero_eq_range, ← Finset.sum_add_distrib]
      refine Finset.sum_congr rfl fun d hdm => ?_
      have hdl : d < qnums.length := by simpa using hdm
      have hidx : (sourceKeys m.kmap).idxOf (srcOf m.kmap d) = r ↔ srcOf m.kmap d = s := by
        have hin : srcOf m.kmap d ∈ sourceKeys m.kmap := (kmem' _).2 ⟨d, hdl, rfl⟩
        obtain ⟨hr', hs'⟩ := List.getElem?_eq_some_iff.1 hs
        constructor
        · intro h
          have := List.getElem_idxOf (List.idxOf_lt_length_iff.2 hin)
          rw [← this, ← hs']
          simp only [h]
        · intro h
          rw [h, ← hs']
          exact knd.idxOf_getElem r hr'
      simp only [hidx]
      by_cases h1 : d = s
      · subst h1; simp [hss]
      · by_cases h2 : srcOf m.kmap d = s
        · have : d ≠ srcOf m.kmap d := by rw [h2]; exact h1
          simp [h1, h2]
        · simp [h1, h2]
    · rw [List.getElem?_eq_none (by omega), List.getElem?_eq_none (by omega)]; rfl
  have hrun : reduceKmesh thr S nProcs useInv sym qnums = .ok ⟨out, m.kmap.map fun e => kmapPack (BitVec.ofNat 64
      ((sourceKeys m.kmap).idxOf (kmapUnpack e).1.toNat)) (kmapUnpack e).2.1 (kmapUnpack e).2.2,
      if (m.kmap.any fun e => decide ((kmapUnpack e).2.1 < 0)) = true then invertListInit useInv sym else [1], m.isSym⟩ := by
    unfold reduceKmesh reduceWith
    simp only [em, el0, eo]
  refine ⟨_, hrun, ?_, ?_, ?_, ?_, ?_, hsym.1, ?_⟩
  · simp [hmin.1]
  · intro d p e hp he
    obtain ⟨t, ht, hf, hk, _⟩ := entry d p hp
    have hsrc := srcE d t ht hk
    simp only [List.getElem?_map, hk, Option.map_some, Option.some.injEq] at he
    obtain ⟨b1, b2, b3⟩ := bound t ht
    have hu := pk_unpack t b1 b2 b3
    have hin : t.1 ∈ sourceKeys m.kmap := by
      rw [kmem']; exact ⟨d, (List.getElem?_eq_some_iff.1 hp).1, hsrc.symm⟩
    have hidl := List.idxOf_lt_length_iff.2 hin
    have ht1 : (BitVec.ofNat 64 t.1).toNat = t.1 := by rw [BitVec.toNat_ofNat, Nat.mod_eq_of_lt (by omega)]
    have hkl : (sourceKeys m.kmap).length ≤ qnums.length := by
      have : (sourceKeys m.kmap) ⊆ List.range qnums.length := by
        intro s hs
        obtain ⟨q, hq, _⟩ := keyF s hs
        exact List.mem_range.2 (List.getElem?_eq_some_iff.1 hq).1
      simpa using (knd.subperm this).length_le
    rw [hu] at he
    simp only [ht1] at he
    have he' : e = pk ((sourceKeys m.kmap).idxOf t.1, t.2.1, t.2.2) := he.symm
    have hu' := pk_unpack ((sourceKeys m.kmap).idxOf t.1, t.2.1, t.2.2) (by show _ < _; omega) b2 b3
    rw [he', hu']
    simp only
    obtain ⟨rot, hr⟩ := getR ht.2.2
    obtain ⟨q, hq⟩ := getQ ht.1
    have hi1 : (BitVec.ofNat 64 ((sourceKeys m.kmap).idxOf t.1)).toNat = (sourceKeys m.kmap).idxOf t.1 := by
      rw [BitVec.toNat_ofNat, Nat.mod_eq_of_lt (by omega)]
    have hi2 : (BitVec.ofNat 32 t.2.2).toNat = t.2.2 := by rw [BitVec.toNat_ofNat, Nat.mod_eq_of_lt (by omega)]
    rw [hi1, hi2]
    refine ⟨⟨q.k, ∑ d ∈ Finset.range qnums.length, if srcOf m.kmap d = t.1 then wOf qnums d else 0⟩, rot, ?_, hr, ?_, hsign _ ht.2.1, ?_⟩
    · rw [out_eq, List.getElem?_map, List.getElem?_eq_getElem hidl, List.getElem_idxOf, Option.map_some, List.getD_eq_getElem?_getD, hq]
      rfl
    · split
      · exact ht.2.1
      · next hany =>
        rcases b3 with h | h
        · simp [h]
        · exfalso
          apply hany
          rw [List.any_eq_true]
          refine ⟨pk t, List.mem_of_getElem? hk, ?_⟩
          rw [hu]
          simp [h]
    · rw [hA t q p rot d hq hr hp (hsign _ ht.2.1), image_eq] at hf
      exact hf
  · intro q hq
    rw [out_eq] at hq
    simp only [List.mem_map] at hq
    obtain ⟨s, hs, rfl⟩ := hq
    obtain ⟨p, hp, hss⟩ := keyF s hs
    have hgd : qnums.getD s ⟨fun _ => 0, 0⟩ = p := by rw [List.getD_eq_getElem?_getD, hp]; rfl
    refine ⟨s, p, hp, by simp only [hgd], ?_, ?_⟩
    · intro d p' hp' hrel
      obtain ⟨_, _, _, hmn⟩ := srcF s p hp
      have := hmn d p' hp' (Related.symm hg hrel)
      omega
    · simp only
      have hfil : ∀ l : List (QN ℝ), ((l.filter fun p' => decide (Related useInv sym p.k p'.k)).map QN.weight).sum
          = (l.map fun p' => if Related useInv sym p.k p'.k then p'.weight else 0).sum := by
        intro l
        induction l with
        | nil => rfl
        | cons a l ih =>
          by_cases h : Related useInv sym p.k a.k
          · simp [h, ih]
          · simp [h, ih]
      rw [hfil, sum_range_eq]
      refine Finset.sum_congr rfl fun d hdm => ?_
      obtain ⟨p', hp'⟩ := getQ (Finset.mem_range.1 hdm)
      have hgd' : qnums.getD d ⟨fun _ => 0, 0⟩ = p' := by rw [List.getD_eq_getElem?_getD, hp']; rfl
      unfold wOf
      rw [hgd']
      simp only [srcRel d p' s p hp' hp hss]
  · rw [out_eq, List.pairwise_map]
    refine List.Pairwise.imp_of_mem ?_ ksort
    intro a b ha hb hab hrel
    obtain ⟨p, hp, hpa⟩ := keyF a ha
    obtain ⟨p', hp', hpb⟩ := keyF b hb
    have h1 : qnums.getD a ⟨fun _ => 0, 0⟩ = p := by rw [List.getD_eq_getElem?_getD, hp]; rfl
    have h2 : qnums.getD b ⟨fun _ => 0, 0⟩ = p' := by rw [List.getD_eq_getElem?_getD, hp']; rfl
    simp only [h1, h2] at hrel
    have := (srcRel b p' a p hp' hp hpa).2 hrel
    omega
  · rw [out_eq, List.map_map]
    rw [sum_range_eq qnums QN.weight]
    exact sum_over_keys _ knd qnums.length (srcOf m.kmap) (wOf qnums) (fun d hdl => (kmem' _).2 ⟨d, hdl, rfl⟩)
  · intro i b rot hb hr
    rw [hsym.2 i b hb]
    have hil : i < sym.length := (List.getElem?_eq_some_iff.1 hr).1
    have h1in : (1 : Int) ∈ invertListInit useInv sym := by
      unfold invertListInit
      simp only
      split
      · simp
      · split <;> simp
    have im1 : ∀ p : QN ℝ, image 1 p.k rot = mulVM p.k (castMat rot) := by
      intro p; rw [image_eq]; funext c; simp [im]
    constructor
    · intro h p hp
      obtain ⟨d, hdl, hdp⟩ := List.mem_iff_getElem.1 hp
      have hpd : qnums[d]? = some p := by rw [List.getElem?_eq_getElem hdl, hdp]
      have h2 := h (d, 1, i) ⟨hdl, h1in, hil⟩ (show (1 : Int) > 0 by decide) rfl
      obtain ⟨x, hx⟩ := Option.ne_none_iff_exists'.1 h2
      have hxl := (hF (d, 1, i) p rot hpd hr).2 x hx
      obtain ⟨p', hp'⟩ := getQ hxl
      refine ⟨p', List.mem_of_getElem? hp', ?_⟩
      rw [hA (d, 1, i) p p' rot x hpd hr hp' (.inl rfl), im1] at hx
      exact hx
    · intro h t ht h1 h2
      obtain ⟨p, hp⟩ := getQ ht.1
      obtain ⟨p', hp', he⟩ := h p (List.mem_of_getElem? hp)
      obtain ⟨x, hxl, hx⟩ := List.mem_iff_getElem.1 hp'
      have hinv : t.2.1 = 1 := by
        rcases (bound t ht).2.2 with h | h
        · exact h
        · rw [h] at h1; exact absurd h1 (by decide)
      have : F t = some x := by
        rw [hA t p p' rot x hp (by rw [h2]; exact hr) (by rw [List.getElem?_eq_getElem hxl, hx]) (.inl hinv), hinv, im1]
        exact he
      rw [this]; simp

/-- The result does not depend on the number of processes (no assumption on group or mesh). -/
theorem C32_processes (thr : ℝ) (hthr : 0 < thr) (S : V3 Int) (hS : ∀ k, 0 < S k) (hts : ∀ k, thr * S k < 0.5)
    (P P' : Nat) (hP : 0 < P) (hP' : 0 < P') (useInv : Bool) (sym : List (Mat Int)) (qnums : List (QN ℝ)) :
    reduceKmesh thr S P useInv sym qnums = reduceKmesh thr S P' useInv sym qnums := by
  have hF := findSpec_lookup thr hthr S hS hts sym qnums
  obtain ⟨m, em, hmin, hsym⟩ := reducedMaps_spec hF (invertListInit useInv sym) P hP
  obtain ⟨m', em', hmin', hsym'⟩ := reducedMaps_spec hF (invertListInit useInv sym) P' hP'
  have : m = m' := by
    cases m; cases m'
    congr 1
    · exact MinOver_unique hmin hmin'
    · exact SymOver_unique hsym hsym'
  unfold reduceKmesh reduceWith
  simp only [em, em', this]

theorem frac_equiv {a b : V3 ℝ} (h : EquivK a b) : (fun k => PL.frac (a k)) = fun k => PL.frac (b k) := by
  funext c
  obtain ⟨n, hn⟩ := h c
  unfold PL.frac
  rw [hn, Int.floor_add_intCast]
  push_cast
  ring

theorem lookup_equiv (thr : ℝ) (S : V3 Int) (points : List (V3 ℝ)) {a b : V3 ℝ} (h : EquivK a b) :
    PL.lookup thr S points (fun _ => True) a = PL.lookup thr S points (fun _ => True) b := by
  have hf := frac_equiv h
  have hfc : ∀ c, PL.frac (a c) = PL.frac (b c) := fun c => congrFun hf c
  have e1 : ∀ l, PL.findIn (thr * thr) points (fun _ => True) a l = PL.findIn (thr * thr) points (fun _ => True) b l := by
    intro l
    induction l with
    | nil => rfl
    | cons i l ih =>
      unfold PL.findIn
      split
      · rfl
      · rw [ih]; simp only [hf]; congr
  have e2 : ∀ t cells, PL.findCells (thr * thr) S points t (fun _ => True) a cells = PL.findCells (thr * thr) S points t (fun _ => True) b cells := by
    intro t cells
    induction cells with
    | nil => rfl
    | cons c cells ih => simp only [PL.findCells, e1, ih]
  have e3 : PL.queryCells thr S a = PL.queryCells thr S b := by
    unfold PL.queryCells
    simp only [hfc]
  unfold PL.lookup PL.find
  rw [e3]
  simp only [e2]

/-- A k-point list containing two equivalent points makes the reduction read outside the list of k-points. -/
theorem C32_duplicate_violation (thr : ℝ) (hthr : 0 < thr) (S : V3 Int) (hS : ∀ k, 0 < S k) (hts : ∀ k, thr * S k < 0.5)
    (nProcs : Nat) (hP : 0 < nProcs) (useInv : Bool) (sym : List (Mat Int)) (qnums : List (QN ℝ)) (hn : qnums.length < 2 ^ 32 - 1)
    (hex : ∀ a ∈ qnums, ∀ b ∈ qnums, ∀ σ : ℝ, (σ = 1 ∨ (useInv = true ∧ σ = -1)) → ∀ rot ∈ sym,
      PL.Coincide thr (fun c => σ * mulVM a.k (castMat rot) c) b.k → EquivK b.k (fun c => σ * mulVM a.k (castMat rot) c))
    (i j : Nat) (hij : i ≠ j) (p q : QN ℝ) (hp : qnums[i]? = some p) (hq : qnums[j]? = some q) (hpq : EquivK p.k q.k) :
    reduceKmesh thr S nProcs useInv sym qnums = .error .ub := by
  have hF := findSpec_lookup thr hthr S hS hts sym qnums
  have hans : ∀ t, AllT qnums sym (invertListInit useInv sym) t → ∀ d x, qnums[d]? = some x →
      answer (fun v => PL.lookup thr S (qnums.map QN.k) (fun _ => True) v) qnums sym t = some d →
      ∃ v, EquivK x.k v ∧ PL.lookup thr S (qnums.map QN.k) (fun _ => True) v = .ok (some d) := by
    intro t ht d x hx he
    have e1 : qnums[t.1]? = some (qnums[t.1]'ht.1) := List.getElem?_eq_getElem _
    have e2 : sym[t.2.2]? = some (sym[t.2.2]'ht.2.2) := List.getElem?_eq_getElem _
    obtain ⟨r, e, h1, _⟩ := PL.C30_lookup thr hthr S hS hts (qnums.map QN.k) (fun _ => True) (image t.2.1 (qnums[t.1]'ht.1).k (sym[t.2.2]'ht.2.2))
    have hr : r = some d := by
      unfold answer at he; rw [e1, e2] at he; simp only [e] at he; exact he
    refine ⟨_, ?_, by rw [e, hr]⟩
    obtain ⟨y, hy, hc, _⟩ := h1 d hr
    rw [List.getElem?_map, hx] at hy
    simp only [Option.map_some, Option.some.injEq] at hy
    rw [← hy] at hc
    have hσ : ((t.2.1 : Int) : ℝ) = 1 ∨ (useInv = true ∧ ((t.2.1 : Int) : ℝ) = -1) := by
      rcases invertListInit_sign useInv sym _ ht.2.1 with h | ⟨hu, h⟩
      · left; rw [h]; simp
      · right; rw [h]; simp [hu]
    rw [image_eq] at hc ⊢
    exact hex _ (List.mem_of_getElem? e1) x (List.mem_of_getElem? hx) _ hσ _ (List.mem_of_getElem? e2) hc
  obtain ⟨m, em, hmin, _⟩ := reducedMaps_spec hF (invertListInit useInv sym) nProcs hP
  have hil : i < m.kmap.length := by rw [hmin.1]; exact (List.getElem?_eq_some_iff.1 hp).1
  have hjl : j < m.kmap.length := by rw [hmin.1]; exact (List.getElem?_eq_some_iff.1 hq).1
  have hone : ∃ e ∈ m.kmap, e = BitVec.allOnes 64 := by
    rcases (hmin.2 i _ (List.getElem?_eq_getElem hil)).1 with h | ⟨t, ht, hft, _⟩
    · exact ⟨_, List.getElem_mem hil, h⟩
    · rcases (hmin.2 j _ (List.getElem?_eq_getElem hjl)).1 with h | ⟨u, hu, hfu, _⟩
      · exact ⟨_, List.getElem_mem hjl, h⟩
      · exfalso
        obtain ⟨v, hv, lv⟩ := hans t ht i p hp hft
        obtain ⟨v', hv', lv'⟩ := hans u hu j q hq hfu
        have := lookup_equiv thr S (qnums.map QN.k) (EquivK.trans (EquivK.trans (EquivK.symm hv) hpq) hv')
        rw [lv, lv'] at this
        simp only [Except.ok.injEq, Option.some.injEq] at this
        exact hij this
  unfold reduceKmesh reduceWith
  simp only [em]
  rw [pickSources_ub]
  refine ⟨2 ^ 32 - 1, ?_, by omega⟩
  rw [(sourceKeys_spec m.kmap).2]
  obtain ⟨e, he, rfl⟩ := hone
  exact ⟨_, he, by decide⟩

/-- Meshes whose coordinates are multiples of `1/N` with `N` up to `4/thr` (40000 for the default threshold) are decisive. -/
theorem C32_mesh_decisive (thr : ℝ) (hthr : 0 < thr) (N : Nat) (hN : 0 < N) (hNt : thr ≤ 4 / N) (useInv : Bool) (sym : List (Mat Int))
    (ks : List (V3 ℝ)) (hks : ∀ k ∈ ks, ∀ c, ∃ z : Int, k c = z / N) (hd : ks.Pairwise fun a b => ¬EquivK a b) :
    Decisive thr useInv sym ks := by
  refine ⟨?_, hd⟩
  intro a ha b hb σ hσ rot _ hc
  obtain ⟨n, hn⟩ := (PL.C30_coincide thr hthr _ b).1 hc
  intro c
  refine ⟨-n c, ?_⟩
  have hN' : (0 : ℝ) < N := by exact_mod_cast hN
  choose za hza using hks a ha
  obtain ⟨zb, hzb⟩ := hks b hb c
  have hint : ∃ z : Int, σ * mulVM a (castMat rot) c = z / N := by
    rcases sign_of hσ with rfl | rfl
    · refine ⟨za 0 * rot 0 c + za 1 * rot 1 c + za 2 * rot 2 c, ?_⟩
      simp only [mulVM, castMat, hza]; push_cast; ring
    · refine ⟨-(za 0 * rot 0 c + za 1 * rot 1 c + za 2 * rot 2 c), ?_⟩
      simp only [mulVM, castMat, hza]; push_cast; ring
  obtain ⟨z, hz⟩ := hint
  have h1 := hn c
  simp only [hz, hzb] at h1
  have h2 : |(z : ℝ) / N - zb / N - n c| < 1 / N := by
    refine h1.trans_le ?_
    rw [div_le_iff₀ (by norm_num)]
    calc thr ≤ 4 / N := hNt
      _ = 1 / N * 4 := by ring
  have h3 : (z : ℝ) / N - zb / N - n c = ((z - zb - n c * N : Int) : ℝ) / N := by
    push_cast; field_simp
  rw [h3, abs_div, abs_of_pos hN', div_lt_div_iff_of_pos_right hN', ← Int.cast_abs] at h2
  have h4 : |z - zb - n c * N| < 1 := by exact_mod_cast h2
  have h5 : z - zb - n c * N = 0 := by
    rwa [Int.abs_lt_one_iff] at h4
  show b c = σ * mulVM a (castMat rot) c + _
  rw [hz, hzb]
  have h6 : ((z - zb - n c * N : Int) : ℝ) = 0 := by exact_mod_cast congrArg (Int.cast : Int → ℝ) h5
  push_cast at h6 ⊢
  field_simp
  linarith

theorem example_group : IsGroup [diag 1 1 1] := by
  have h : mulMM (diag (1 : Int) 1 1) (diag 1 1 1) = diag 1 1 1 := by
    funext i j; revert i j; decide
  refine ⟨by simp, ?_, ?_⟩ <;> simp [h]

-- Three points of which two are related by inversion only; the hypotheses of `C32_reduce_partial` hold for them.
example : IsGroup [diag 1 1 1] ∧ Decisive (1/10000) true [diag 1 1 1] [vec (1/4) 0 0, vec 0 0 0, vec (3/4) 0 0] ∧
    Related true [diag 1 1 1] (vec (1/4) 0 0) (vec (3/4) 0 0) := by
  refine ⟨example_group, ?_, -1, .inr ⟨rfl, rfl⟩, diag 1 1 1, by simp, ?_⟩
  · apply C32_mesh_decisive _ (by norm_num) 4 (by norm_num) (by norm_num)
    · intro k hk c
      simp only [List.mem_cons, List.not_mem_nil, or_false] at hk
      rcases hk with rfl | rfl | rfl
      · exact ⟨![1, 0, 0] c, by fin_cases c <;> simp [vec]⟩
      · exact ⟨0, by fin_cases c <;> simp [vec]⟩
      · exact ⟨![3, 0, 0] c, by fin_cases c <;> simp [vec]⟩
    · have key : ∀ a b : V3 ℝ, ∀ z : Int, 4 * (a 0 - b 0) = z → z % 4 ≠ 0 → ¬EquivK a b := by
        intro a b z h1 h2 h
        obtain ⟨n, hn⟩ := h 0
        apply h2
        have : (z : ℝ) = ((4 * n : Int) : ℝ) := by rw [← h1, hn]; push_cast; ring
        have : z = 4 * n := by exact_mod_cast this
        omega
      refine List.pairwise_cons.2 ⟨?_, List.pairwise_cons.2 ⟨?_, by simp⟩⟩
      · intro b hb
        simp only [List.mem_cons, List.not_mem_nil, or_false] at hb
        rcases hb with rfl | rfl
        · exact key _ _ 1 (by simp [vec]) (by decide)
        · exact key _ _ (-2) (by simp [vec]; norm_num) (by decide)
      · intro b hb
        simp only [List.mem_cons, List.not_mem_nil, or_false] at hb
        subst hb
        exact key _ _ (-3) (by simp [vec]; norm_num) (by decide)
  · intro c
    refine ⟨![1, 0, 0] c, ?_⟩
    fin_cases c <;> simp [vec, mulVM, castMat, diag]
    norm_num

end
end Jdftx.RK
