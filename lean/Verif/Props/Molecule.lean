import Verif.Lemmas.Molecule
/-!
# C118: a fluid molecule is made neutral, and its bonds are counted once

The charge reported is the sum over all atoms; a small net charge is removed from one site, after which the molecule is
neutral; the dipole moment of a neutral molecule does not depend on the origin; and the bonds between hard spheres are the
unordered pairs of atoms that touch, so the assertion on even counts cannot fail.
-/
namespace Jdftx.Mole
open Jdftx.M3

/-- The charge reported is the sum over all atoms, with values below `1e-12` reported as zero. -/
theorem C118_charge (sites : List Site) :
    (|netCharge sites| < 1 / 10 ^ 12 → getCharge sites = 0) ∧
    (1 / 10 ^ 12 ≤ |netCharge sites| → getCharge sites = netCharge sites) := by
  rw [getCharge_eq]
  exact ⟨fun h => if_pos h, fun h => if_neg (not_lt.mpr h)⟩

/-- If every site has an atom, checking the charge succeeds. A molecule whose charge is below a hundredth is neutral
afterwards and zero is returned; any other is unchanged and its charge is returned. -/
theorem C118_check (sites : List Site) (hp : ∀ s ∈ sites, s.positions ≠ []) :
    ∃ Q after, checkCharge sites = .ok (Q, after) ∧
      (|netCharge sites| < 1 / 10 ^ 2 → Q = 0 ∧ getCharge after = 0) ∧
      (1 / 10 ^ 12 ≤ |netCharge sites| → |netCharge sites| < 1 / 10 ^ 2 → netCharge after = 0) ∧
      (|netCharge sites| < 1 / 10 ^ 12 → after = sites) ∧
      (1 / 10 ^ 2 ≤ |netCharge sites| → Q = netCharge sites ∧ after = sites) := by
  have e := getCharge_eq sites
  unfold checkCharge
  by_cases h0 : |netCharge sites| < 1 / 10 ^ 12
  · rw [if_pos h0] at e
    simp only [e, if_true]
    refine ⟨0, sites, rfl, fun _ => ⟨rfl, e⟩, fun h => absurd h0 (not_lt.mpr h), fun _ => rfl, fun h => ?_⟩
    exact absurd (lt_of_lt_of_le h0 (le_trans (by norm_num) h)) (lt_irrefl _)
  · rw [if_neg h0] at e
    have hne : netCharge sites ≠ 0 := by
      intro h; rw [h] at h0; apply h0; norm_num
    simp only [e, hne, if_false]
    by_cases h2 : |netCharge sites| < 1 / 10 ^ 2
    · obtain ⟨c, s, h3, h4, h5, h6⟩ := chargedSite_spec sites hne
      have hpos : s.positions ≠ [] := hp s (List.mem_of_getElem? h4)
      have hlen : (s.positions.length : ℝ) ≠ 0 := by
        rw [Nat.cast_ne_zero]; exact fun h => hpos (List.length_eq_zero_iff.mp h)
      have hl : ¬ (sites[c]?.map fun s => s.positions.length) = some 0 := by
        rw [h4]; simp [hpos]
      have hn : netCharge (sites.modify c (adjust (netCharge sites))) = 0 := by
        rw [net_modify sites c s _ h4]
        simp only [adjust]
        field_simp
        ring
      rw [if_pos h2, h3]
      simp only [hl, if_false]
      refine ⟨0, _, rfl, fun _ => ⟨rfl, ?_⟩, fun _ _ => hn, fun h => absurd h h0, fun h => absurd h2 (not_lt.mpr h)⟩
      rw [getCharge_eq, hn, ite_self]
    · rw [if_neg h2]
      exact ⟨_, _, rfl, fun h => absurd h h2, fun _ h => absurd h h2, fun h => absurd h h0, fun _ => ⟨rfl, rfl⟩⟩

/-- Only the first charged site is changed, by the same amount for every one of its atoms, and neither the nuclear charge of
any site nor any position or radius. -/
theorem C118_one_site (sites after : List Site) (Q : ℝ) (h : checkCharge sites = .ok (Q, after)) :
    after.length = sites.length ∧ ∃ c, ∀ (k : ℕ) (s s' : Site), sites[k]? = some s → after[k]? = some s' →
      s'.positions = s.positions ∧ s'.Rhs = s.Rhs ∧ s'.elec - s'.charge = s.elec - s.charge ∧
      (k ≠ c → s' = s) ∧ (k < c → s.charge = 0) ∧ (s'.charge ≠ s.charge → s.charge ≠ 0) := by
  have same : ∀ c' : ℕ, c' = 0 → sites.length = sites.length ∧ ∃ c, ∀ (k : ℕ) (s s' : Site), sites[k]? = some s → sites[k]? = some s' →
      s'.positions = s.positions ∧ s'.Rhs = s.Rhs ∧ s'.elec - s'.charge = s.elec - s.charge ∧
      (k ≠ c → s' = s) ∧ (k < c → s.charge = 0) ∧ (s'.charge ≠ s.charge → s.charge ≠ 0) := by
    intro _ _
    refine ⟨rfl, 0, fun k s s' h1 h2 => ?_⟩
    rw [h1, Option.some.injEq] at h2
    subst h2
    exact ⟨rfl, rfl, rfl, fun _ => rfl, fun h => absurd h (by omega), fun h => absurd rfl h⟩
  unfold checkCharge at h
  simp only at h
  split_ifs at h with h0 h2
  · simp only [Except.ok.injEq, Prod.mk.injEq] at h
    rw [← h.2]; exact same 0 rfl
  · have hne : netCharge sites ≠ 0 := by
      intro hz
      apply h0
      rw [getCharge_eq, hz, ite_self]
    obtain ⟨c, s0, h3, h4, h5, h6⟩ := chargedSite_spec sites hne
    rw [h3] at h
    simp only at h
    split_ifs at h with hl
    simp only [Except.ok.injEq, Prod.mk.injEq] at h
    rw [← h.2]
    refine ⟨List.length_modify .., c, fun k s s' h7 h8 => ?_⟩
    rw [List.getElem?_modify, h7] at h8
    by_cases hk : c = k
    · subst hk
      rw [h4, Option.some.injEq] at h7
      subst h7
      simp only [if_true, Option.map_some, Option.map_eq_map, Option.some.injEq] at h8
      subst h8
      exact ⟨rfl, rfl, by simp [adjust], fun h => absurd rfl h, fun h => absurd h (lt_irrefl _), fun _ => h5⟩
    · simp [hk] at h8
      subst h8
      exact ⟨rfl, rfl, rfl, fun _ => rfl, fun h => h6 k h _ h7, fun h => absurd rfl h⟩
  · simp only [Except.ok.injEq, Prod.mk.injEq] at h
    rw [← h.2]; exact same 0 rfl

/-- The dipole moment reported is the sum of charge times position, with lengths below `1e-12` reported as zero. -/
theorem C118_dipole (sites : List Site) :
    (Real.sqrt (dot (moment sites) (moment sites)) < 1 / 10 ^ 12 → ∀ d, getDipole sites d = 0) ∧
    (1 / 10 ^ 12 ≤ Real.sqrt (dot (moment sites) (moment sites)) → getDipole sites = moment sites) := by
  have e : sites.foldl (fun P s => s.positions.foldl (fun (P : V3 ℝ) r => fun d => P d + s.charge * r d) P)
      (fun _ => 0) = moment sites := by
    funext d; rw [dipole_sum, zero_add]
  unfold getDipole length
  simp only [e]
  exact ⟨fun h d => by rw [if_pos h], fun h => if_neg (not_lt.mpr h)⟩

/-- Moving the molecule adds charge times displacement to its dipole moment. -/
theorem C118_moved_moment (sites : List Site) (t : V3 ℝ) (d : Fin 3) :
    moment (moved t sites) d = moment sites d + netCharge sites * t d := by
  have inner : ∀ l : List (V3 ℝ), ((l.map fun r d => r d + t d).map fun r => r d).sum =
      (l.map fun r => r d).sum + (l.length : ℝ) * t d := by
    intro l
    induction l with
    | nil => simp
    | cons r l ih =>
      rw [List.map_cons, List.map_cons, List.sum_cons, ih, List.map_cons, List.sum_cons, List.length_cons]
      push_cast; ring
  unfold moment moved netCharge
  induction sites with
  | nil => simp
  | cons s l ih =>
    simp only [List.map_cons, List.sum_cons] at ih ⊢
    rw [ih, inner]; ring

/-- The dipole moment of a neutral molecule does not depend on the origin. -/
theorem C118_moved (sites : List Site) (t : V3 ℝ) (h : netCharge sites = 0) :
    getDipole (moved t sites) = getDipole sites := by
  have e : moment (moved t sites) = moment sites := by
    funext d; rw [C118_moved_moment, h]; ring
  by_cases hs : Real.sqrt (dot (moment sites) (moment sites)) < 1 / 10 ^ 12
  · funext d
    rw [(C118_dipole sites).1 hs d, (C118_dipole (moved t sites)).1 (by rw [e]; exact hs) d]
  · have hs := not_lt.mp hs
    rw [(C118_dipole sites).2 hs, (C118_dipole (moved t sites)).2 (by rw [e]; exact hs), e]

/-- The assertion on even counts never fails, and every unordered pair of touching spheres is counted once. -/
theorem C118_bonds (sites : List Site) :
    ∃ bonds, getBonds sites = .ok bonds ∧ ∀ key, bonds key = countPairs (Bond key) (spheres sites) := by
  have h : ∀ key, (bondVisits sites).count key = 2 * countPairs (Bond key) (spheres sites) := by
    intro key
    rw [visits_count]
    exact count_ordered _ (bond_symm key) _ fun a _ => bond_self key a
  unfold getBonds
  rw [if_pos (by intro key _; rw [h]; omega)]
  refine ⟨_, rfl, fun key => ?_⟩
  simp only [h]; omega

/-- Water with a hydrogen site whose charge is slightly wrong. -/
noncomputable def waterLike : List Site :=
  [⟨[vec 0 0 0], 2, 0, 3⟩, ⟨[vec 2 0 0, vec 0 2 0], 0, 1 / 1000, 1⟩]

example : netCharge waterLike = 1 / 500 := by
  norm_num [netCharge, waterLike]

/-- The hypotheses of `C118_check` hold and the middle case is met. -/
example : (∀ s ∈ waterLike, s.positions ≠ []) ∧ 1 / 10 ^ 12 ≤ |netCharge waterLike| ∧ |netCharge waterLike| < 1 / 10 ^ 2 := by
  have e : netCharge waterLike = 1 / 500 := by norm_num [netCharge, waterLike]
  rw [e, abs_of_pos (by norm_num)]
  exact ⟨by simp [waterLike], by norm_num, by norm_num⟩

/-- Two spheres of radius one and two at distance three have one bond of reduced radius 2/3. -/
example : ∃ bonds, getBonds [⟨[vec 0 0 0], 1, 0, 0⟩, ⟨[vec 3 0 0], 2, 0, 0⟩] = .ok bonds ∧ bonds (2 / 3) = 1 := by
  obtain ⟨b, h1, h2⟩ := C118_bonds [⟨[vec 0 0 0], 1, 0, 0⟩, ⟨[vec 3 0 0], 2, 0, 0⟩]
  refine ⟨b, h1, ?_⟩
  have hs : spheres [⟨[vec 0 0 0], 1, 0, 0⟩, ⟨[vec 3 0 0], 2, 0, 0⟩] = [((1 : ℝ), vec 0 0 0), (2, vec 3 0 0)] := by
    simp [spheres]
  have hb : Bond (2 / 3) ((1 : ℝ), vec 0 0 0) (2, vec 3 0 0) := by
    have e : Real.sqrt (dot (fun d => (vec (0 : ℝ) 0 0) d - (vec 3 0 0) d) (fun d => (vec (0 : ℝ) 0 0) d - (vec 3 0 0) d)) = 3 := by
      rw [show dot (fun d => (vec (0 : ℝ) 0 0) d - (vec 3 0 0) d) (fun d => (vec (0 : ℝ) 0 0) d - (vec 3 0 0) d) = 3 ^ 2 by
        norm_num [dot, vec], Real.sqrt_sq (by norm_num)]
    refine ⟨?_, by norm_num⟩
    show |(1 : ℝ) + 2 - _| < _
    rw [e]; norm_num
  rw [h2, hs]
  simp [countPairs, hb]

/-- A neutral molecule with a dipole moment, for `C118_moved`. -/
example : netCharge [⟨[vec 0 0 0], 1, -2, 0⟩, ⟨[vec 1 0 0, vec 0 1 0], 0, 1, 0⟩] = 0 ∧
    moment [⟨[vec 0 0 0], 1, -2, 0⟩, ⟨[vec 1 0 0, vec 0 1 0], 0, 1, 0⟩] 0 = 1 := by
  constructor
  · norm_num [netCharge]
  · norm_num [moment, vec]

end Jdftx.Mole
