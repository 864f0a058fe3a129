import Verif.Lemmas.VibrationsK

/-!
# C105: vibrations (force matrix)
-/
namespace Jdftx.Vib
noncomputable section
open M3

variable {N ns : ℕ}

/-- **C105 (positions).** Whatever the forces, differences and modes: at the end of the calculation the atoms are back at their positions, and each response is measured at plus (and, for
central differences, minus) the requested displacement. -/
theorem C105_positions (grad : Disp N → Disp N) (pel : Disp N → V3 ℝ) (Z : Fin N → ℝ) (dr : ℝ) (central : Bool) (modes : List (Mode N)) :
    (∀ a, (sweep grad pel Z dr central modes).1.pos a = 0) ∧ (sweep grad pel Z dr central modes).2.map Resp.mode = modes.filter (·.isPrimary) ∧
    ∀ q ∈ (sweep grad pel Z dr central modes).2, ∀ a, let u : Disp N := fun b => if b = q.mode.atom then dr • q.mode.n else 0
      q.K a = if central then (1 / (2 * dr)) • (grad u a - grad (fun b => -u b) a) else (1 / dr) • (grad u a - grad (fun _ => 0) a) := by
  obtain ⟨h1, h2⟩ := sweep_spec grad pel Z dr central modes
  refine ⟨h1, ?_, ?_⟩
  · rw [h2, List.map_map]
    exact List.map_id _
  · intro q hq a
    rw [h2] at hq
    obtain ⟨m, _, rfl⟩ := List.mem_map.1 hq
    have e : (fun b => dr • single m b) = fun b => if b = m.atom then dr • m.n else 0 := by
      funext b
      simp only [single]
      split <;> simp
    have e2 : (fun b => -(dr • single m b)) = fun b => -if b = m.atom then dr • m.n else 0 := by
      funext b; rw [congrFun e b]
    have h5 : (0.5 / dr : ℝ) = 1 / (2 * dr) := by rw [one_div, mul_inv, div_eq_mul_inv]; norm_num
    simp only [respOf, difference, e, e2, h5]

/-- **C105 (directions).** For atoms without constraint, with a line or with a plane: if the directions are numbers, they are orthogonal unit vectors, and the constraint leaves of every motion
its components along them. An atom has no directions only if it is fixed. -/
theorem C105_directions (c : Constraint) (l : List (V3 ℝ)) (h : directions c = .ok (some (l.map some))) :
    (∀ n ∈ l, dot n n = 1) ∧ l.Pairwise (fun n m => dot n m = 0) ∧ ∀ v k, c.apply v k = (l.map fun n => dot v n * n k).sum := directions_spec h

/-- They are numbers for lines and for planes whose normal is not along the third axis. -/
theorem C105_directions_partial (c : Constraint) (hm : c.moveScale ≠ 0) (ht : c.type = .none ∨ c.type = .linear ∧ dot c.d c.d ≠ 0 ∨ c.type = .planar ∧ (c.d 0 ≠ 0 ∨ c.d 1 ≠ 0)) :
    ∃ l : List (V3 ℝ), directions c = .ok (some (l.map some)) := by
  unfold directions
  rw [if_neg hm]
  rcases ht with ht | ⟨ht, hd⟩ | ⟨ht, hd⟩
  · rw [ht]
    exact ⟨[vec 1 0 0, vec 0 1 0, vec 0 0 1], rfl⟩
  · rw [ht]
    exact ⟨[fun k => c.d k / Real.sqrt (dot c.d c.d)], by simp [normalized, hd]⟩
  · have hdd : dot c.d c.d ≠ 0 := by
      intro h0
      have h0 : c.d 0 * c.d 0 + c.d 1 * c.d 1 + c.d 2 * c.d 2 = 0 := h0
      rcases hd with h | h
      · have := mul_self_pos.2 h
        nlinarith [mul_self_nonneg (c.d 1), mul_self_nonneg (c.d 2)]
      · have := mul_self_pos.2 h
        nlinarith [mul_self_nonneg (c.d 0), mul_self_nonneg (c.d 2)]
    have hA : dot (planarA c.d) (planarA c.d) ≠ 0 := by
      intro h0
      have h0' : ∀ k, planarA c.d k = 0 := by
        have : planarA c.d 0 * planarA c.d 0 + planarA c.d 1 * planarA c.d 1 + planarA c.d 2 * planarA c.d 2 = 0 := h0
        intro k
        fin_cases k <;> (simp only [Fin.zero_eta, Fin.mk_one, Fin.reduceFinMk]; nlinarith [mul_self_nonneg (planarA c.d 0), mul_self_nonneg (planarA c.d 1), mul_self_nonneg (planarA c.d 2)])
      by_cases h : |c.d 0| < |c.d 1|
      · have h1 := h0' 1
        have h2 := h0' 0
        simp only [planarA, planarStart, if_pos h, dot, vec] at h1 h2
        have hd1 : c.d 1 ≠ 0 := by
          intro e
          rw [e, abs_zero] at h
          exact absurd h (not_lt.2 (abs_nonneg _))
        have h3 : (c.d 0 * 1 + c.d 1 * 0 + c.d 2 * 0) / (c.d 0 * c.d 0 + c.d 1 * c.d 1 + c.d 2 * c.d 2) = 0 := by
          have : c.d 1 * ((c.d 0 * 1 + c.d 1 * 0 + c.d 2 * 0) / (c.d 0 * c.d 0 + c.d 1 * c.d 1 + c.d 2 * c.d 2)) = 0 := by linarith
          exact (mul_eq_zero.1 this).resolve_left hd1
        rw [h3] at h2
        linarith
      · have h1 := h0' 0
        have h2 := h0' 2
        simp only [planarA, planarStart, if_neg h, dot, vec] at h1 h2
        have hd0 : c.d 0 ≠ 0 := by
          intro e
          rw [e, abs_zero, not_lt, abs_nonpos_iff] at h
          rcases hd with h' | h'
          · exact h' e
          · exact h' h
        have h3 : (c.d 0 * 0 + c.d 1 * 0 + c.d 2 * 1) / (c.d 0 * c.d 0 + c.d 1 * c.d 1 + c.d 2 * c.d 2) = 0 := by
          have : c.d 0 * ((c.d 0 * 0 + c.d 1 * 0 + c.d 2 * 1) / (c.d 0 * c.d 0 + c.d 1 * c.d 1 + c.d 2 * c.d 2)) = 0 := by linarith
          exact (mul_eq_zero.1 this).resolve_left hd0
        rw [h3] at h2
        linarith
    have hB : dot (cross c.d (planarA c.d)) (cross c.d (planarA c.d)) ≠ 0 := by
      rw [cross_sq, planarA_perp hdd]
      simpa using ⟨hdd, hA⟩
    rw [ht]
    exact ⟨[fun k => planarA c.d k / Real.sqrt (dot (planarA c.d) (planarA c.d)),
      fun k => cross c.d (planarA c.d) k / Real.sqrt (dot (cross c.d (planarA c.d)) (cross c.d (planarA c.d)))], by simp [normalized, hA, hB]⟩

example : ∃ l : List (V3 ℝ), directions ⟨1, .planar, vec 1 0 1⟩ = .ok (some (l.map some)) :=
  C105_directions_partial _ (by norm_num) (Or.inr (Or.inr ⟨rfl, Or.inl (by simp [vec])⟩))

/-- **C105 (planes).** An atom that can move in the plane perpendicular to the third axis has directions that are not numbers. -/
theorem C105_planar_fails (s z : ℝ) (hs : s ≠ 0) (hz : z ≠ 0) : directions ⟨s, .planar, vec 0 0 z⟩ = .ok (some [none, none]) := by
  have hA : planarA (vec 0 0 z) = fun _ => 0 := by
    funext k
    fin_cases k <;> simp [planarA, planarStart, vec, dot, hz]
  simp only [directions, if_neg hs, hA]
  simp [normalized, dot, cross, vec]

theorem mem_modes {dirs : Fin N → Option (List (V3 ℝ))} {isP isT : Fin N → Bool} {m : Mode N} (h : m ∈ (List.finRange N).flatMap (block dirs isP isT)) :
    m.n ∈ (dirs m.atom).getD [] ∧ m.fromTranslation = isT m.atom ∧ dirs m.atom ≠ none := by
  obtain ⟨a, _, ha⟩ := List.mem_flatMap.1 h
  obtain ⟨n, hn, rfl⟩ := List.mem_map.1 ha
  refine ⟨hn, rfl, ?_⟩
  intro e
  have e : dirs a = none := e
  rw [e] at hn
  simp at hn

/-- The common part for forces and dipole moments. -/
theorem rows {o : Sym N ns} (g : Group o) {c : Fin N → Constraint} (hc : Covariant o c) {tr : Bool} (htr : tr = true → c = fun _ => nullConstraint)
    {dirs : Fin N → Option (List (V3 ℝ))} (hd : ∀ a, directions (c a) = .ok ((dirs a).map (List.map some))) {thr : ℝ} (hr : Resolved o thr dirs)
    {C : ℕ} (raw : Mode N → Fin C → ℝ) (mult : Mode N → ℝ) (val : Fin C → Mode N → Fin ns → Mode N → ℝ) (F : Fin C → Fin N → V3 ℝ → ℝ)
    (hraw : ∀ m1 k, raw m1 k = (((modesOf o tr dirs).filter (·.isPrimary)).map fun q => ∑ r, open Classical in if used o thr q m1 r then weight o q m1 r * val k q r m1 else 0).sum)
    (hmult : ∀ m1, mult m1 = (((modesOf o tr dirs).filter (·.isPrimary)).map fun q => ∑ r, open Classical in if used o thr q m1 r then weight o q m1 r * weight o q m1 r else 0).sum)
    (hF : ∀ k a (v : V3 ℝ), F k a v = v 0 * F k a (vec 1 0 0) + v 1 * F k a (vec 0 1 0) + v 2 * F k a (vec 0 0 1))
    (hv : ∀ k m1 (m : Mode N) r, o.amap m.atom r = m1.atom → val k m r m1 = F k m1.atom (mulMV (rot o r) m.n))
    (hsum : tr = true → ∀ k v, ∑ a, F k a v = 0) (i : Fin (modesOf o tr dirs).length) (k : Fin C) :
    fillTranslation (fun i : Fin (modesOf o tr dirs).length => (modesOf o tr dirs)[i]) (fun i k => (if (modesOf o tr dirs)[i].fromTranslation then 0 else 1 / mult (modesOf o tr dirs)[i]) * raw (modesOf o tr dirs)[i] k) i k
      = F k (modesOf o tr dirs)[i].atom (modesOf o tr dirs)[i].n := by
  obtain ⟨isP, isT, hM, hT, hU, hcov⟩ := modesOf_spec g tr dirs
  have hraw' := hraw
  have hmult' := hmult
  simp only [hM] at hraw' hmult'
  have hmem : ∀ i : Fin (modesOf o tr dirs).length, (modesOf o tr dirs)[i] ∈ (List.finRange N).flatMap (block dirs isP isT) := by
    intro i
    rw [← hM]
    exact List.getElem_mem _
  have hspec : ∀ a, ∀ n ∈ (dirs a).getD [], dot n n = 1 := by
    intro a n hn
    cases h : dirs a with
    | none => rw [h] at hn; simp at hn
    | some l =>
      have := hd a
      rw [h, Option.map_some] at this
      rw [h, Option.getD_some] at hn
      exact (directions_spec this).1 n hn
  have hpw : ∀ a, ((dirs a).getD []).Pairwise fun n m => dot n m = 0 := by
    intro a
    cases h : dirs a with
    | none => simp
    | some l =>
      have := hd a
      rw [h, Option.map_some] at this
      exact (directions_spec this).2.1
  have hpair := modes_pairwise dirs isP isT hpw
  rw [← hM] at hpair
  have hTt : ∀ i : Fin (modesOf o tr dirs).length, (modesOf o tr dirs)[i].fromTranslation = true → tr = true := by
    intro i hi
    obtain ⟨_, h2, h3⟩ := mem_modes (hmem i)
    rw [h2] at hi
    exact (hT _ h3 hi).2.2
  have hfull : tr = true → ∀ a, dirs a = some [vec 1 0 0, vec 0 1 0, vec 0 0 1] := by
    intro ht a
    have h := hd a
    rw [htr ht] at h
    simp only [directions, nullConstraint, one_ne_zero, if_false] at h
    have h := Except.ok.inj h
    cases hda : dirs a with
    | none => rw [hda] at h; simp at h
    | some l =>
      rw [hda, Option.map_some] at h
      have h := Option.some.inj h
      obtain ⟨x, y, z, rfl⟩ := List.length_eq_three.1 (show l.length = 3 by simpa using (congrArg List.length h).symm)
      simp only [List.map_cons, List.map_nil, List.cons.injEq, Option.some.injEq, and_true] at h
      rw [h.1, h.2.1, h.2.2]
  have hfill := fill_spec (fun i : Fin (modesOf o tr dirs).length => (modesOf o tr dirs)[i])
    (fun i k => (if (modesOf o tr dirs)[i].fromTranslation then 0 else 1 / mult (modesOf o tr dirs)[i]) * raw (modesOf o tr dirs)[i] k)
    (fun i k => F k (modesOf o tr dirs)[i].atom (modesOf o tr dirs)[i].n) ?_ ?_ ?_ ?_
  · rw [hfill]
  · intro i k
    split
    · rw [zero_mul]
    · rename_i hT0
      obtain ⟨h1, h2, h3⟩ := mem_modes (hmem i)
      have hTf : isT (modesOf o tr dirs)[i].atom = false := by
        rw [← h2]
        simpa using hT0
      rw [hraw', hmult']
      have hw := weighted g hc hd hr isP isT (modesOf o tr dirs)[i] h1 (fun m r => val k m r (modesOf o tr dirs)[i]) (F k (modesOf o tr dirs)[i].atom) (hF k _) (hv k _)
      have hw2 := weighted g hc hd hr isP isT (modesOf o tr dirs)[i] h1 (fun m r => weight o m (modesOf o tr dirs)[i] r) (fun v => dot v (modesOf o tr dirs)[i].n) (dot_linear _) (fun _ _ _ => rfl)
      rw [hw, hw2, hspec _ _ h1, mul_one]
      have hpos : 0 < ∑ p, if isP p then ∑ r, if o.amap p r = (modesOf o tr dirs)[i].atom then (1 : ℝ) else 0 else 0 := by
        obtain ⟨p, _, hp, r, hr⟩ := hcov _ h3 hTf
        have hnn : ∀ p, 0 ≤ ∑ r, if o.amap p r = (modesOf o tr dirs)[i].atom then (1 : ℝ) else 0 := fun p => Finset.sum_nonneg fun r _ => by split <;> norm_num
        refine Finset.sum_pos' (fun p _ => by split; exacts [hnn p, le_refl _]) ⟨p, Finset.mem_univ _, ?_⟩
        rw [if_pos hp]
        exact Finset.sum_pos' (fun r _ => by split <;> norm_num) ⟨r, Finset.mem_univ _, by rw [if_pos hr]; norm_num⟩
      rw [← mul_assoc, one_div_mul_cancel hpos.ne', one_mul]
  · intro i j hi hj hij
    obtain ⟨_, h2, h3⟩ := mem_modes (hmem i)
    obtain ⟨_, h2', h3'⟩ := mem_modes (hmem j)
    have hi : isT (modesOf o tr dirs)[i].atom = true := by rw [← h2]; exact hi
    have hj : isT (modesOf o tr dirs)[j].atom = true := by rw [← h2']; exact hj
    have e := hU _ _ h3 h3' hi hj
    have hp := List.pairwise_iff_getElem.1 hpair
    rcases lt_trichotomy i.1 j.1 with h | h | h
    · exact hp i.1 j.1 i.2 j.2 h e
    · exact absurd (Fin.ext h) hij
    · rw [dot_comm']
      exact hp j.1 i.1 j.2 i.2 h e.symm
  · intro i _
    exact hspec _ _ (mem_modes (hmem i)).1
  · intro i hi k
    have ht := hTt i hi
    have e : ∀ (L : List (Mode N)) (f : Mode N → ℝ), ∑ j : Fin L.length, f L[j] = (L.map f).sum := by
      intro L f
      rw [← List.sum_ofFn]
      congr 1
      exact List.ofFn_getElem_eq_map L f
    rw [e (modesOf o tr dirs) fun m => dot (modesOf o tr dirs)[i].n m.n * F k m.atom m.n]
    generalize (modesOf o tr dirs)[i].n = v
    rw [hM, sum_modes]
    rw [← hsum ht k v]
    refine Finset.sum_congr rfl fun a _ => ?_
    rw [hfull ht a, hF k a v]
    simp [dot, vec]
    ring

/-- **C105 (force matrix).** For every primitive crystal with its symmetries, every atom constraints that respect them, every threshold that separates the projections, both kinds of finite
differences, with or without use of translations (only without constraints): if the forces are linear in the displacements with some force constants, the force matrix consists of their
components along the modes. -/
theorem C105_force_matrix [NeZero ns] (o : Sym N ns) (g : Group o) (hp : Primitive o) (c : Fin N → Constraint) (hc : Covariant o c) (tr : Bool) (htr : tr = true → c = fun _ => nullConstraint)
    (dirs : Fin N → Option (List (V3 ℝ))) (hd : ∀ a, directions (c a) = .ok ((dirs a).map (List.map some))) (thr : ℝ) (hr : Resolved o thr dirs)
    (grad : Disp N → Disp N) (pel : Disp N → V3 ℝ) (Z : Fin N → ℝ) (dr : ℝ) (hdr : dr ≠ 0) (central : Bool) (Φ : Fin N → Fin N → Mat ℝ) (hh : Harmonic grad central Φ) (hΦ : ForceConstants o Φ)
    (ht : tr = true → TranslationInvariant Φ) (i1 i2 : Fin (modesOf o tr dirs).length) :
    forceMatrix o thr grad pel Z dr central (modesOf o tr dirs) i1 i2
      = dot (modesOf o tr dirs)[i2].n (mulMV (Φ (modesOf o tr dirs)[i2].atom (modesOf o tr dirs)[i1].atom) (modesOf o tr dirs)[i1].n) := by
  have key : ∀ i1 i2, fillTranslation (fun i : Fin (modesOf o tr dirs).length => (modesOf o tr dirs)[i])
      (fun i1 i2 : Fin (modesOf o tr dirs).length => invMult o thr (sweep grad pel Z dr central (modesOf o tr dirs)).2 (modesOf o tr dirs)[i1] * rawK o thr (sweep grad pel Z dr central (modesOf o tr dirs)).2 (modesOf o tr dirs)[i1] (modesOf o tr dirs)[i2]) i1 i2
        = dot (modesOf o tr dirs)[i2].n (mulMV (Φ (modesOf o tr dirs)[i2].atom (modesOf o tr dirs)[i1].atom) (modesOf o tr dirs)[i1].n) := by
    refine rows g hc htr hd hr (fun m1 i2 => rawK o thr (sweep grad pel Z dr central (modesOf o tr dirs)).2 m1 (modesOf o tr dirs)[i2]) (multOf o thr (sweep grad pel Z dr central (modesOf o tr dirs)).2)
      (fun i2 q r m1 => dot (modesOf o tr dirs)[i2].n (mulMV (rot o r) (mulMV (Φ (o.amap (modesOf o tr dirs)[i2].atom (rotInv o r)) q.atom) q.n)))
      (fun i2 a v => dot (modesOf o tr dirs)[i2].n (mulMV (Φ (modesOf o tr dirs)[i2].atom a) v)) ?_ ?_ ?_ ?_ ?_
    · intro m1 k
      rw [(sweep_spec grad pel Z dr central (modesOf o tr dirs)).2, rawK, List.map_map]
      congr 1
      refine List.map_congr_left fun q _ => ?_
      refine Finset.sum_congr rfl fun r _ => ?_
      simp only [respOf, difference_harmonic grad hdr central Φ hh]
      rfl
    · intro m1
      rw [(sweep_spec grad pel Z dr central (modesOf o tr dirs)).2, multOf, List.map_map]
      rfl
    · intro k a v
      simp only [dot, mulMV, vec]; ring
    · intro k m1 m r ha
      rw [← hΦ.equivariant, (rotInv_spec g hp r _).1, ha]
    · intro h k v
      have := ht h (modesOf o tr dirs)[k].atom v
      have e : ∀ (s : Finset (Fin N)) (w : Fin N → V3 ℝ), ∑ a ∈ s, dot (modesOf o tr dirs)[k].n (w a) = dot (modesOf o tr dirs)[k].n (∑ a ∈ s, w a) := by
        intro s w
        simp only [dot, Finset.sum_apply, Finset.sum_add_distrib, Finset.mul_sum]
      rw [e]
      rw [response] at this
      rw [this]
      simp [dot]
  show (1 / 2) * (_ + _) = _
  rw [key, key]
  have : dot (modesOf o tr dirs)[i1].n (mulMV (Φ (modesOf o tr dirs)[i1].atom (modesOf o tr dirs)[i2].atom) (modesOf o tr dirs)[i2].n)
      = dot (modesOf o tr dirs)[i2].n (mulMV (Φ (modesOf o tr dirs)[i2].atom (modesOf o tr dirs)[i1].atom) (modesOf o tr dirs)[i1].n) := by
    simp only [dot, mulMV, hΦ.symm (modesOf o tr dirs)[i1].atom]; ring
  rw [this]; ring

/-- **C105 (dipole moments).** Likewise for the derivatives of the dipole moment; use of translations needs a neutral system. -/
theorem C105_dipole [NeZero ns] (o : Sym N ns) (g : Group o) (c : Fin N → Constraint) (hc : Covariant o c) (tr : Bool) (htr : tr = true → c = fun _ => nullConstraint)
    (dirs : Fin N → Option (List (V3 ℝ))) (hd : ∀ a, directions (c a) = .ok ((dirs a).map (List.map some))) (thr : ℝ) (hr : Resolved o thr dirs)
    (grad : Disp N → Disp N) (pel : Disp N → V3 ℝ) (Z : Fin N → ℝ) (hZ : ∀ a r, Z (o.amap a r) = Z a) (dr : ℝ) (hdr : dr ≠ 0) (central : Bool) (D : Fin N → Mat ℝ) (hD : Dipole o pel central D)
    (hn : tr = true → ∀ v, ∑ a, (mulMV (D a) v - Z a • v) = 0) (i : Fin (modesOf o tr dirs).length) (k : Fin 3) :
    dipoleDerivative o thr grad pel Z dr central (modesOf o tr dirs) i k
      = mulMV (D (modesOf o tr dirs)[i].atom) (modesOf o tr dirs)[i].n k - Z (modesOf o tr dirs)[i].atom * (modesOf o tr dirs)[i].n k := by
  refine rows g hc htr hd hr (rawP o thr (sweep grad pel Z dr central (modesOf o tr dirs)).2) (multOf o thr (sweep grad pel Z dr central (modesOf o tr dirs)).2)
    (fun k q r _ => mulMV (rot o r) (mulMV (D q.atom) q.n - Z q.atom • q.n) k) (fun k a v => mulMV (D a) v k - Z a * v k) ?_ ?_ ?_ ?_ ?_ i k
  · intro m1 k
    rw [(sweep_spec grad pel Z dr central (modesOf o tr dirs)).2, rawP, List.map_map]
    congr 1
    refine List.map_congr_left fun q _ => ?_
    refine Finset.sum_congr rfl fun r _ => ?_
    simp only [respOf, difference_linear pel hdr central D hD.linear]
    rfl
  · intro m1
    rw [(sweep_spec grad pel Z dr central (modesOf o tr dirs)).2, multOf, List.map_map]
    rfl
  · intro k a v
    fin_cases k <;> (simp [mulMV, vec]; ring)
  · intro k m1 m r ha
    rw [mulMV_sub', mulMV_smul', ← hD.equivariant, ha, ← hZ m.atom r, ha]
    rfl
  · intro h k v
    have := congrFun (hn h v) k
    rw [Finset.sum_apply] at this
    exact this

/-- Two atoms exchanged by inversion. -/
def exSym : Sym 2 2 := ⟨diag 1 1 1, fun r => if r = 0 then diag 1 1 1 else diag (-1) (-1) (-1), fun a r => if r = 0 then a else 1 - a⟩

theorem inv_one : Basis.inv (diag 1 1 1 : Mat ℝ) = diag 1 1 1 := by
  funext i j
  fin_cases i <;> fin_cases j <;> simp [Basis.inv, smul, det, box, dot, cross, row, vec, diag, adjugate, ofCols]

theorem rot_one {N ns : ℕ} (o : Sym N ns) (h : o.R = diag 1 1 1) (r : Fin ns) : rot o r = castMat (o.irot r) := by
  unfold rot
  rw [h, inv_one]
  funext i j
  fin_cases i <;> fin_cases j <;> simp [mulMM, diag, vec]

/-- A spring between two atoms. -/
def spring (a b : Fin 2) : Mat ℝ := if a = b then diag 1 1 1 else diag (-1) (-1) (-1)

theorem exSym_group : Group exSym := by
  refine ⟨?_, ⟨0, fun a => rfl⟩, ?_, ?_⟩
  · intro r v w
    rw [rot_one exSym rfl]
    fin_cases r <;> (simp [exSym, mulMV, castMat, diag, vec, dot])
  · intro r r'
    exact ⟨r + r', by fin_cases r <;> fin_cases r' <;> decide⟩
  · intro r
    exact ⟨r, by fin_cases r <;> decide, by fin_cases r <;> decide⟩

theorem exSym_primitive : Primitive exSym := by
  intro r r'
  fin_cases r <;> fin_cases r' <;> simp [exSym]
  · intro h; exact absurd (congrFun (congrFun h 0) 0) (by decide)
  · intro h; exact absurd (congrFun (congrFun h 0) 0) (by decide)

theorem spring_symm (a b : Fin 2) (i j : Fin 3) : spring a b i j = spring b a j i := by
  fin_cases a <;> fin_cases b <;> fin_cases i <;> fin_cases j <;> simp [spring, diag]

theorem spring_mul (a b : Fin 2) (v : V3 ℝ) : mulMV (spring a b) v = (if a = b then 1 else -1 : ℝ) • v := by
  funext k
  fin_cases a <;> fin_cases b <;> fin_cases k <;> simp [spring, diag, mulMV, vec]

theorem spring_translation : TranslationInvariant spring := by
  intro a v
  rw [response, Fin.sum_univ_two, spring_mul, spring_mul]
  fin_cases a <;> simp

theorem exSym_spring : ForceConstants exSym spring := by
  refine ⟨spring_symm, ?_⟩
  intro r a b v
  rw [spring_mul, spring_mul, mulMV_smul']
  congr 1
  fin_cases r <;> fin_cases a <;> fin_cases b <;> rfl

def exDirs : Fin 2 → Option (List (V3 ℝ)) := fun _ => some [vec 1 0 0, vec 0 1 0, vec 0 0 1]

theorem exDirs_spec (a : Fin 2) : directions nullConstraint = .ok ((exDirs a).map (List.map some)) := by
  simp [directions, nullConstraint, exDirs]

theorem exSym_covariant : Covariant exSym fun _ => nullConstraint := by
  refine ⟨fun _ _ => Iff.rfl, ?_⟩
  intro a r v
  simp [Constraint.apply, nullConstraint]

theorem exSym_resolved : Resolved exSym 1e-4 exDirs := by
  intro a r n hn m hm
  rw [rot_one exSym rfl]
  simp only [exDirs, Option.getD_some, List.mem_cons, List.not_mem_nil, or_false] at hn hm
  rcases hn with rfl | rfl | rfl <;> rcases hm with rfl | rfl | rfl <;> fin_cases r <;> (simp [exSym, dot, mulMV, castMat, diag, vec]; try norm_num)

theorem spring_harmonic (central : Bool) : Harmonic (fun u a => response spring u a) central spring := by
  have h0 : ∀ a, response spring (fun _ => 0) a = 0 := fun a => spring_translation a 0
  have hn : ∀ (u : Disp 2) a, response spring (fun b => -u b) a = -response spring u a := by
    intro u a
    simp only [response, Fin.sum_univ_two, spring_mul, smul_neg]
    abel
  cases central with
  | true => intro u a; simp only [hn, sub_neg_eq_add, two_smul]
  | false => intro u a; simp only [h0, sub_zero]

example (central tr : Bool) (i1 i2 : Fin (modesOf exSym tr exDirs).length) := C105_force_matrix exSym exSym_group exSym_primitive (fun _ => nullConstraint) exSym_covariant tr (fun _ => rfl) exDirs exDirs_spec 1e-4
  exSym_resolved (fun u a => response spring u a) (fun _ => 0) (fun _ => 1) 0.01 (by norm_num) central spring (spring_harmonic central) exSym_spring (fun _ => spring_translation) i1 i2

example (central tr : Bool) (i : Fin (modesOf exSym tr exDirs).length) (k : Fin 3) := C105_dipole exSym exSym_group (fun _ => nullConstraint) exSym_covariant tr (fun _ => rfl) exDirs exDirs_spec 1e-4
  exSym_resolved (fun u a => response spring u a) (fun u => ∑ b, mulMV (diag 1 1 1) (u b)) (fun _ => 1) (fun _ _ => rfl) 0.01 (by norm_num) central (fun _ => diag 1 1 1)
  ⟨by
    cases central with
    | true =>
      intro u
      have : ∀ b, mulMV (diag 1 1 1 : Mat ℝ) (-u b) = -mulMV (diag 1 1 1) (u b) := fun b => by funext k; simp [mulMV]; ring
      simp only [this, Finset.sum_neg_distrib, sub_neg_eq_add, two_smul]
    | false =>
      intro u
      have : mulMV (diag 1 1 1 : Mat ℝ) (0 : V3 ℝ) = 0 := mulMV_zero' _
      simp only [this, Finset.sum_const_zero, sub_zero], by
    intro r a v
    have : ∀ v : V3 ℝ, mulMV (diag 1 1 1) v = v := fun v => by funext k; fin_cases k <;> simp [mulMV, diag, vec]
    rw [this, this]⟩
  (fun _ v => by
    have : mulMV (diag 1 1 1) v = v := by funext k; fin_cases k <;> simp [mulMV, diag, vec]
    simp [this]) i k

/-- Two atoms exchanged by a translation within the unit cell. -/
def exTrans : Sym 2 2 := ⟨diag 1 1 1, fun _ => diag 1 1 1, fun a r => if r = 0 then a else 1 - a⟩

theorem exTrans_group : Group exTrans := by
  refine ⟨?_, ⟨0, fun a => rfl⟩, ?_, ?_⟩
  · intro r v w
    rw [rot_one exTrans rfl]
    simp [exTrans, mulMV, castMat, diag, vec, dot]
  · intro r r'
    exact ⟨r + r', by fin_cases r <;> fin_cases r' <;> decide⟩
  · intro r
    exact ⟨r, by fin_cases r <;> decide, by fin_cases r <;> decide⟩

theorem exTrans_spring : ForceConstants exTrans spring := by
  refine ⟨spring_symm, ?_⟩
  intro r a b v
  rw [spring_mul, spring_mul, mulMV_smul']
  congr 1
  fin_cases r <;> fin_cases a <;> fin_cases b <;> rfl

theorem exTrans_inv : rotInv exTrans 0 = 1 := by decide +kernel

theorem exTrans_modes : modesOf exTrans true exDirs = [⟨0, vec 1 0 0, true, false⟩, ⟨0, vec 0 1 0, true, false⟩, ⟨0, vec 0 0 1, true, false⟩,
    ⟨1, vec 1 0 0, false, false⟩, ⟨1, vec 0 1 0, false, false⟩, ⟨1, vec 0 0 1, false, false⟩] := by rfl

theorem exTrans_aux (thr dr : ℝ) (hthr : thr ≤ 1) (hdr : dr ≠ 0) (central : Bool) (M : List (Mode 2)) (hM : M = [⟨0, vec 1 0 0, true, false⟩, ⟨0, vec 0 1 0, true, false⟩, ⟨0, vec 0 0 1, true, false⟩,
    ⟨1, vec 1 0 0, false, false⟩, ⟨1, vec 0 1 0, false, false⟩, ⟨1, vec 0 0 1, false, false⟩]) :
    ∃ i : Fin M.length, dot M[i].n (mulMV (spring M[i].atom M[i].atom) M[i].n) = 1 ∧ forceMatrix exTrans thr (fun u a => response spring u a) (fun _ => 0) (fun _ => 1) dr central M i i = -1 := by
  subst hM
  refine ⟨0, by simp [spring_mul, dot, vec], ?_⟩
  have hrot : ∀ r v, mulMV (rot exTrans r) v = v := by
    intro r v
    rw [rot_one exTrans rfl]
    funext k
    fin_cases k <;> simp [exTrans, mulMV, castMat, diag, vec]
  have hfill : ∀ K : Fin 6 → Fin 6 → ℝ, fillTranslation (fun i : Fin 6 => ([⟨0, vec 1 0 0, true, false⟩, ⟨0, vec 0 1 0, true, false⟩, ⟨0, vec 0 0 1, true, false⟩,
      ⟨1, vec 1 0 0, false, false⟩, ⟨1, vec 0 1 0, false, false⟩, ⟨1, vec 0 0 1, false, false⟩] : List (Mode 2))[i]) K = K := by
    intro K
    have : ∀ i : Fin 6, (([⟨0, vec 1 0 0, true, false⟩, ⟨0, vec 0 1 0, true, false⟩, ⟨0, vec 0 0 1, true, false⟩,
      ⟨1, vec 1 0 0, false, false⟩, ⟨1, vec 0 1 0, false, false⟩, ⟨1, vec 0 0 1, false, false⟩] : List (Mode 2))[i]).fromTranslation = false := by
      intro i; fin_cases i <;> rfl
    unfold fillTranslation
    simp only [this, Bool.false_eq_true, if_false]
    generalize List.finRange 6 = l
    induction l with
    | nil => rfl
    | cons a l ih => exact ih
  unfold forceMatrix
  simp only [(sweep_spec _ _ _ _ _ _).2]
  refine Eq.trans (congrArg (fun x : ℝ => 1 / 2 * (x + x)) (congrFun (congrFun (hfill _) 0) 0)) ?_
  simp [rawK, invMult, multOf, respOf, used, weight, hrot, difference_harmonic _ hdr central spring (spring_harmonic central), spring_mul, Fin.sum_univ_two, exTrans_inv]
  have a0 : exTrans.amap 0 0 = 0 := rfl
  have a1 : exTrans.amap 0 1 = 1 := rfl
  simp [a0, a1, dot, vec, hthr]
  norm_num

/-- **C105 (cells that are not primitive).** If the cell has a translation symmetry, the inverses of symmetries are mixed up and the force matrix is wrong: for two atoms connected by a spring
and exchanged by a translation, the diagonal is the negative of the force constant. -/
theorem C105_supercell_fails (thr dr : ℝ) (hthr : thr ≤ 1) (hdr : dr ≠ 0) (central : Bool) : Group exTrans ∧ ForceConstants exTrans spring ∧ TranslationInvariant spring ∧
    ∃ i : Fin (modesOf exTrans true exDirs).length, dot (modesOf exTrans true exDirs)[i].n (mulMV (spring (modesOf exTrans true exDirs)[i].atom (modesOf exTrans true exDirs)[i].atom) (modesOf exTrans true exDirs)[i].n) = 1 ∧
      forceMatrix exTrans thr (fun u a => response spring u a) (fun _ => 0) (fun _ => 1) dr central (modesOf exTrans true exDirs) i i = -1 := by
  exact ⟨exTrans_group, exTrans_spring, spring_translation, exTrans_aux thr dr hthr hdr central _ exTrans_modes⟩

end
end Jdftx.Vib
