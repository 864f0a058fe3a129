import Verif.Lemmas.GLLBsc

/-! # Property C109: band edges, potential and gap of the GLLB-sc functional -/
set_option linter.unusedSectionVars false
namespace Jdftx.GLLB
open Matrix Jdftx.ElecMin Jdftx.MatFn
open scoped ComplexOrder
noncomputable section

variable {G : Type} [Fintype G] {nb : ℕ}

/-- **C109 (band edges).** Without smearing the highest occupied energy is the largest energy of all bands of the spin, in all processes, that are at least half filled, and the lowest empty one is the smallest
of those that are at most half filled; when there is none it is the largest number with the right sign. -/
theorem C109_edges (M : ℝ) (procs : List (List (QState G nb))) (s : Fin 2) (hM : ∀ q b, Band procs s q b → |q.eig b| ≤ M) :
    ∃ eH eL, extremalEnergy M 0 true procs s = some eH ∧ extremalEnergy M 0 false procs s = some eL ∧
      ((occupied procs s).Nonempty → IsGreatest (occupied procs s) eH) ∧ (occupied procs s = ∅ → eH = -M) ∧
      ((empty procs s).Nonempty → IsLeast (empty procs s) eL) ∧ (empty procs s = ∅ → eL = M) := by
  obtain ⟨h1, h2, h3⟩ := extremal_homo M QState.eig procs s
  obtain ⟨g1, g2, g3⟩ := extremal_lumo M QState.eig procs s
  refine ⟨_, _, by unfold extremalEnergy; rw [if_neg (by simp)], by unfold extremalEnergy; rw [if_neg (by simp)], ?_, ?_, ?_, ?_⟩
  · rintro ⟨e, q, b, hb, hF, rfl⟩
    refine ⟨?_, ?_⟩
    · rcases h3 with h | ⟨q', b', hb', hF', h⟩
      · refine ⟨q, b, hb, hF, le_antisymm ?_ (h2 q b hb hF)⟩
        rw [h]
        exact (abs_le.1 (hM q b hb)).1
      · exact ⟨q', b', hb', hF', h⟩
    · rintro e ⟨q, b, hb, hF, rfl⟩
      exact h2 q b hb hF
  · intro he
    rcases h3 with h | ⟨q', b', hb', hF', h⟩
    · exact h
    · have : q'.eig b' ∈ occupied procs s := ⟨q', b', hb', hF', rfl⟩
      rw [he] at this
      exact this.elim
  · rintro ⟨e, q, b, hb, hF, rfl⟩
    refine ⟨?_, ?_⟩
    · rcases g3 with h | ⟨q', b', hb', hF', h⟩
      · refine ⟨q, b, hb, hF, le_antisymm (g2 q b hb hF) ?_⟩
        rw [h]
        exact (abs_le.1 (hM q b hb)).2
      · exact ⟨q', b', hb', hF', h⟩
    · rintro e ⟨q, b, hb, hF, rfl⟩
      exact g2 q b hb hF
  · intro he
    rcases g3 with h | ⟨q', b', hb', hF', h⟩
    · exact h
    · have : q'.eig b' ∈ empty procs s := ⟨q', b', hb', hF', rfl⟩
      rw [he] at this
      exact this.elim

theorem sum_flatten (f : QState G nb × Fin nb → ℝ) (procs : List (List (QState G nb))) : (procs.map fun P => ((entries P).map f).sum).sum = ((entries procs.flatten).map f).sum := by
  induction procs with
  | nil => simp [entries]
  | cons P t ih =>
    rw [List.map_cons, List.sum_cons, ih, List.flatten_cons]
    unfold entries
    rw [List.flatMap_append, List.map_append, List.sum_append]

theorem entries_perm {P P' : List (QState G nb)} (h : P.Perm P') : (entries P).Perm (entries P') := h.flatMap_right _

theorem band_perm {procs procs' : List (List (QState G nb))} (h : procs.flatten.Perm procs'.flatten) (s : Fin 2) (q : QState G nb) (b : Fin nb) : Band procs s q b → Band procs' s q b := by
  rintro ⟨⟨P, hP, hq⟩, hs⟩
  have : q ∈ procs'.flatten := h.subset (List.mem_flatten.2 ⟨P, hP, hq⟩)
  obtain ⟨P', hP', hq'⟩ := List.mem_flatten.1 this
  exact ⟨⟨P', hP', hq'⟩, hs⟩

theorem extremal_perm {M : ℝ} {procs procs' : List (List (QState G nb))} (h : procs.flatten.Perm procs'.flatten) (s : Fin 2) (homo : Bool) (en : QState G nb → Fin nb → ℝ) (hM : ∀ q b, Band procs s q b → |en q b| ≤ M) :
    extremal M homo en procs s = extremal M homo en procs' s := by
  have hb := band_perm h s
  have hb' := band_perm h.symm s
  have hM' : ∀ q b, Band procs' s q b → |en q b| ≤ M := fun q b hq => hM q b (hb' q b hq)
  cases homo
  · obtain ⟨g1, g2, g3⟩ := extremal_lumo M en procs s
    obtain ⟨k1, k2, k3⟩ := extremal_lumo M en procs' s
    apply le_antisymm
    · rcases k3 with h | ⟨q, b, hq, hF, h⟩ <;> rw [h]
      · exact g1
      · exact g2 q b (hb' q b hq) hF
    · rcases g3 with h | ⟨q, b, hq, hF, h⟩ <;> rw [h]
      · exact k1
      · exact k2 q b (hb q b hq) hF
  · obtain ⟨g1, g2, g3⟩ := extremal_homo M en procs s
    obtain ⟨k1, k2, k3⟩ := extremal_homo M en procs' s
    apply le_antisymm
    · rcases g3 with h | ⟨q, b, hq, hF, h⟩ <;> rw [h]
      · exact k1
      · exact k2 q b (hb q b hq) hF
    · rcases k3 with h | ⟨q, b, hq, hF, h⟩ <;> rw [h]
      · exact g1
      · exact g2 q b (hb' q b hq) hF

/-- **C109 (processes).** How the states are divided among processes does not matter. -/
theorem C109_processes (M width : ℝ) (homo : Bool) (procs procs' : List (List (QState G nb))) (h : procs.flatten.Perm procs'.flatten) (s : Fin 2) (hM : ∀ q b, Band procs s q b → |q.eig b| ≤ M) :
    extremalEnergy M width homo procs s = extremalEnergy M width homo procs' s := by
  unfold extremalEnergy
  split
  · unfold smeared
    simp only [sum_flatten]
    rw [((entries_perm h).map _).sum_eq, ((entries_perm h).map _).sum_eq]
  · rw [extremal_perm h s homo _ hM]

theorem bandWeight_cases (homo : Bool) (F : ℝ) :
    (homo = true → (F ≤ 1 / 2 → bandWeight homo F = 0) ∧ (1 / 2 < F → F < 1 → 0 < bandWeight homo F) ∧ (F = 1 → bandWeight homo F = 0)) ∧
      (homo = false → (1 / 2 ≤ F → bandWeight homo F = 0) ∧ (F < 1 / 2 → 0 < F → 0 < bandWeight homo F) ∧ (F = 0 → bandWeight homo F = 0)) := by
  constructor
  · rintro rfl
    unfold bandWeight
    simp only [if_true]
    refine ⟨fun h => if_pos (by norm_num; linarith), fun h h' => ?_, fun h => by subst h; split <;> simp⟩
    rw [if_neg (by norm_num; linarith)]
    have h1 : 0 < 1 - F := by linarith
    have h2 : 0 < F - 0.5 := by norm_num; linarith
    positivity
  · rintro rfl
    unfold bandWeight
    simp only [Bool.false_eq_true, if_false]
    refine ⟨fun h => if_pos (by norm_num; linarith), fun h h' => ?_, fun h => by subst h; split <;> simp⟩
    rw [if_neg (by norm_num; linarith)]
    have h1 : 0 < 1 - (1 - F) := by linarith
    have h2 : 0 < 1 - F - 0.5 := by norm_num; linarith
    positivity

theorem bandWeight_nonneg (homo : Bool) (F : ℝ) (h0 : 0 ≤ F) (h1 : F ≤ 1) : 0 ≤ bandWeight homo F := by
  unfold bandWeight
  cases homo
  · simp only [Bool.false_eq_true, if_false]
    split
    · exact le_rfl
    · rename_i h
      have h2 : 0 ≤ 1 - F - 0.5 := by push Not at h; linarith
      have h3 : (0 : ℝ) ≤ 1 - (1 - F) := by linarith
      positivity
  · simp only [if_true]
    split
    · exact le_rfl
    · rename_i h
      have h2 : 0 ≤ F - 0.5 := by push Not at h; linarith
      have h3 : (0 : ℝ) ≤ 1 - F := by linarith
      positivity

theorem sum_pos_or {α : Type} (L : List α) (f : α → ℝ) (h : ∀ x ∈ L, 0 ≤ f x) : (L.map f).sum = 0 ∨ 0 < (L.map f).sum ∧ ∃ x ∈ L, 0 < f x := by
  induction L with
  | nil => simp
  | cons y t ih =>
    rw [List.map_cons, List.sum_cons]
    have hy := h y (by simp)
    rcases ih fun x hx => h x (List.mem_cons_of_mem _ hx) with h0 | ⟨h0, x, hx, h1⟩
    · rcases hy.eq_or_lt with hy | hy
      · exact Or.inl (by rw [h0, ← hy, add_zero])
      · exact Or.inr ⟨by rw [h0]; linarith, y, by simp, hy⟩
    · exact Or.inr ⟨by linarith, x, List.mem_cons_of_mem _ hx, h1⟩

theorem sum_le_of {α : Type} (L : List α) (w e : α → ℝ) (m : ℝ) (h : ∀ x ∈ L, 0 ≤ w x) (he : ∀ x ∈ L, 0 < w x → e x < m) :
    (L.map fun x => w x * e x).sum ≤ m * (L.map w).sum ∧ ((∃ x ∈ L, 0 < w x) → (L.map fun x => w x * e x).sum < m * (L.map w).sum) := by
  induction L with
  | nil => simp
  | cons y t ih =>
    rw [List.map_cons, List.sum_cons, List.map_cons, List.sum_cons, mul_add]
    obtain ⟨i1, i2⟩ := ih (fun x hx => h x (List.mem_cons_of_mem _ hx)) (fun x hx => he x (List.mem_cons_of_mem _ hx))
    have hy := h y (by simp)
    have hy1 : w y * e y ≤ m * w y := by
      rcases hy.eq_or_lt with h0 | h0
      · rw [← h0]; simp
      · rw [mul_comm m]; exact mul_le_mul_of_nonneg_left (he y (by simp) h0).le hy
    refine ⟨by linarith, ?_⟩
    rintro ⟨x, hx, hwx⟩
    rcases List.mem_cons.1 hx with rfl | hx
    · have : w x * e x < m * w x := by rw [mul_comm m]; exact mul_lt_mul_of_pos_left (he x (by simp) hwx) hwx
      linarith
    · linarith [i2 ⟨x, hx, hwx⟩]

theorem le_sum_of {α : Type} (L : List α) (w e : α → ℝ) (m : ℝ) (h : ∀ x ∈ L, 0 ≤ w x) (he : ∀ x ∈ L, 0 < w x → m < e x) (hex : ∃ x ∈ L, 0 < w x) :
    m * (L.map w).sum < (L.map fun x => w x * e x).sum := by
  have := (sum_le_of L w (fun x => -e x) (-m) h (fun x hx hw => by linarith [he x hx hw])).2 hex
  have h2 : (L.map fun x => w x * -e x).sum = -(L.map fun x => w x * e x).sum := by
    clear this h he hex
    induction L with
    | nil => simp
    | cons y t ih => rw [List.map_cons, List.sum_cons, ih, List.map_cons, List.sum_cons]; ring
  rw [h2] at this
  linarith

theorem smeared_eq (homo : Bool) (procs : List (List (QState G nb))) (s : Fin 2) (w : QState G nb × Fin nb → ℝ) (hw : w = fun x => if x.1.spin = s then x.1.weight * bandWeight homo (x.1.F x.2) else 0) :
    smeared homo procs s = open Classical in if ((entries procs.flatten).map w).sum = 0 then none
      else some (((entries procs.flatten).map fun x => w x * x.1.eig x.2).sum / ((entries procs.flatten).map w).sum) := by
  unfold smeared
  simp only [sum_flatten]
  subst hw
  congr 4
  refine List.map_congr_left fun x _ => ?_
  show _ = (if x.1.spin = s then x.1.weight * bandWeight homo (x.1.F x.2) else 0) * x.1.eig x.2
  split <;> ring

/-- **C109 (smeared edges).** With smearing the edges are averages over partially filled bands: defined exactly when the spin has a band filled more than half but not entirely (less than half but not empty),
and strictly below (above) every level that separates the bands filled more and less than half; so the two edges never cross. -/
theorem C109_smeared (M width : ℝ) (hw : width ≠ 0) (procs : List (List (QState G nb))) (s : Fin 2) (hok : ∀ q b, Band procs s q b → q.OK) :
    ((extremalEnergy M width true procs s).isSome ↔ ∃ q b, Band procs s q b ∧ 1 / 2 < q.F b ∧ q.F b < 1) ∧
      ((extremalEnergy M width false procs s).isSome ↔ ∃ q b, Band procs s q b ∧ 0 < q.F b ∧ q.F b < 1 / 2) ∧
      ∀ mu, (∀ q b, Band procs s q b → (1 / 2 < q.F b → q.eig b < mu) ∧ (q.F b < 1 / 2 → mu < q.eig b)) →
        (∀ e, extremalEnergy M width true procs s = some e → e < mu) ∧ ∀ e, extremalEnergy M width false procs s = some e → mu < e := by
  have hband : ∀ x ∈ entries procs.flatten, x.1.spin = s → Band procs s x.1 x.2 := by
    intro x hx hs
    obtain ⟨P, hP, hq⟩ := List.mem_flatten.1 (mem_entries.1 hx)
    exact ⟨⟨P, hP, hq⟩, hs⟩
  have hmem : ∀ q b, Band procs s q b → (q, b) ∈ entries procs.flatten := fun q b hb => mem_entries.2 (List.mem_flatten.2 hb.1)
  have hex : ∀ homo, extremalEnergy M width homo procs s = smeared homo procs s := fun homo => by unfold extremalEnergy; rw [if_pos hw]
  set w : Bool → QState G nb × Fin nb → ℝ := fun homo x => if x.1.spin = s then x.1.weight * bandWeight homo (x.1.F x.2) else 0 with hwdef
  have hw0 : ∀ homo, ∀ x ∈ entries procs.flatten, 0 ≤ w homo x := by
    intro homo x hx
    simp only [hwdef]
    split
    · rename_i hs
      have := hok _ x.2 (hband x hx hs)
      exact mul_nonneg this.weight.le (bandWeight_nonneg _ _ (this.F0 _) (this.F1 _))
    · exact le_rfl
  have hwT : ∀ x ∈ entries procs.flatten, 0 < w true x → x.1.spin = s ∧ 1 / 2 < x.1.F x.2 ∧ x.1.F x.2 < 1 := by
    intro x hx h
    simp only [hwdef] at h
    split at h
    · rename_i hs
      have hq := hok _ x.2 (hband x hx hs)
      obtain ⟨c1, c2, c3⟩ := (bandWeight_cases true (x.1.F x.2)).1 rfl
      refine ⟨hs, ?_, ?_⟩
      · by_contra hn
        rw [c1 (by linarith), mul_zero] at h
        exact lt_irrefl _ h
      · refine lt_of_le_of_ne (hq.F1 _) fun he => ?_
        rw [c3 he, mul_zero] at h
        exact lt_irrefl _ h
    · exact absurd h (lt_irrefl _)
  have hwF : ∀ x ∈ entries procs.flatten, 0 < w false x → x.1.spin = s ∧ 0 < x.1.F x.2 ∧ x.1.F x.2 < 1 / 2 := by
    intro x hx h
    simp only [hwdef] at h
    split at h
    · rename_i hs
      have hq := hok _ x.2 (hband x hx hs)
      obtain ⟨c1, c2, c3⟩ := (bandWeight_cases false (x.1.F x.2)).2 rfl
      refine ⟨hs, ?_, ?_⟩
      · refine lt_of_le_of_ne (hq.F0 _) fun he => ?_
        rw [c3 he.symm, mul_zero] at h
        exact lt_irrefl _ h
      · by_contra hn
        rw [c1 (by linarith), mul_zero] at h
        exact lt_irrefl _ h
    · exact absurd h (lt_irrefl _)
  have hwT' : ∀ q b, Band procs s q b → 1 / 2 < q.F b → q.F b < 1 → 0 < w true (q, b) := by
    intro q b hb h1 h2
    simp only [hwdef, hb.2, if_true]
    exact mul_pos (hok q b hb).weight (((bandWeight_cases true (q.F b)).1 rfl).2.1 h1 h2)
  have hwF' : ∀ q b, Band procs s q b → 0 < q.F b → q.F b < 1 / 2 → 0 < w false (q, b) := by
    intro q b hb h1 h2
    simp only [hwdef, hb.2, if_true]
    exact mul_pos (hok q b hb).weight (((bandWeight_cases false (q.F b)).2 rfl).2.1 h2 h1)
  refine ⟨?_, ?_, fun mu hmu => ⟨fun e he => ?_, fun e he => ?_⟩⟩
  · rw [hex, smeared_eq true procs s (w true) rfl]
    rcases sum_pos_or _ _ (hw0 true) with h | ⟨h, x, hx, hx'⟩
    · rw [if_pos h]
      refine ⟨fun hh => by simp at hh, ?_⟩
      rintro ⟨q, b, hb, h1, h2⟩
      have := hwT' q b hb h1 h2
      have hle := List.single_le_sum (l := (entries procs.flatten).map (w true)) (by
        intro y hy
        obtain ⟨x, hx, rfl⟩ := List.mem_map.1 hy
        exact hw0 true x hx) _ (List.mem_map.2 ⟨(q, b), hmem q b hb, rfl⟩)
      linarith
    · rw [if_neg h.ne']
      obtain ⟨a1, a2, a3⟩ := hwT x hx hx'
      exact ⟨fun _ => ⟨x.1, x.2, hband x hx a1, a2, a3⟩, fun _ => rfl⟩
  · rw [hex, smeared_eq false procs s (w false) rfl]
    rcases sum_pos_or _ _ (hw0 false) with h | ⟨h, x, hx, hx'⟩
    · rw [if_pos h]
      refine ⟨fun hh => by simp at hh, ?_⟩
      rintro ⟨q, b, hb, h1, h2⟩
      have := hwF' q b hb h1 h2
      have hle := List.single_le_sum (l := (entries procs.flatten).map (w false)) (by
        intro y hy
        obtain ⟨x, hx, rfl⟩ := List.mem_map.1 hy
        exact hw0 false x hx) _ (List.mem_map.2 ⟨(q, b), hmem q b hb, rfl⟩)
      linarith
    · rw [if_neg h.ne']
      obtain ⟨a1, a2, a3⟩ := hwF x hx hx'
      exact ⟨fun _ => ⟨x.1, x.2, hband x hx a1, a2, a3⟩, fun _ => rfl⟩
  · rw [hex, smeared_eq true procs s (w true) rfl] at he
    rcases sum_pos_or _ _ (hw0 true) with h | ⟨h, hx⟩
    · rw [if_pos h] at he
      cases he
    · rw [if_neg h.ne', Option.some.injEq] at he
      rw [← he, div_lt_iff₀ h]
      refine (sum_le_of _ _ (fun x => x.1.eig x.2) mu (hw0 true) fun x hx hwx => ?_).2 hx
      obtain ⟨a1, a2, -⟩ := hwT x hx hwx
      exact (hmu _ _ (hband x hx a1)).1 a2
  · rw [hex, smeared_eq false procs s (w false) rfl] at he
    rcases sum_pos_or _ _ (hw0 false) with h | ⟨h, hx⟩
    · rw [if_pos h] at he
      cases he
    · rw [if_neg h.ne', Option.some.injEq] at he
      rw [← he, lt_div_iff₀ h]
      refine le_sum_of _ _ (fun x => x.1.eig x.2) mu (hw0 false) (fun x hx hwx => ?_) hx
      obtain ⟨a1, -, a3⟩ := hwF x hx hwx
      exact (hmu _ _ (hband x hx a1)).2 a3

end
end Jdftx.GLLB
