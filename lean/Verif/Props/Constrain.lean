import Verif.Spec.Constrain
import Verif.Props.Dynamics
import Mathlib.Algebra.Order.Field.Rat
import Mathlib.Tactic.Linarith
import Mathlib.Tactic.Abel
import Mathlib.LinearAlgebra.FiniteDimensional.Lemmas
import Mathlib.LinearAlgebra.Dimension.DivisionRing

/-!
# C61: constraints on ionic motion are respected
-/
namespace Jdftx.Ion
open Jdftx.M3

variable {K L : Type} [Field K] [LinearOrder K] [LinearOrder L] {n : Nat}

omit [LinearOrder K] in
theorem dot_eq_inner (u v : V3 K) : dot u v = inner3 u v := by
  simp [dot, inner3, Fin.sum_univ_three]

omit [LinearOrder K] [LinearOrder L] in
theorem groupEntry_eq [DecidableEq L] (c : Constraint K L) (l : L) : groupEntry c l = normalOf c l := by
  unfold groupEntry normalOf
  cases c.type with
  | hyperPlane planes =>
    simp only
    induction planes using List.reverseRecOn with
    | nil => rfl
    | append_singleton ps p ih =>
      rw [List.foldl_append, List.reverse_append]
      by_cases h : p.2 = l <;> simp_all
  | _ => rfl

omit [LinearOrder K] [LinearOrder L] in
theorem group_iff [DecidableEq L] (cs : Fin n → Constraint K L) (l : L) (x : Motion K n) :
    GroupOK cs l x ↔ dotM (groupVec cs l) x = 0 := by
  unfold GroupOK dotM groupVec
  simp only [dot_eq_inner, groupEntry_eq]

theorem insertKey_mem (l k : L) (ks : List L) : k ∈ insertKey l ks ↔ k = l ∨ k ∈ ks := by
  induction ks with
  | nil => simp [insertKey]
  | cons h t ih =>
    unfold insertKey
    split
    · simp
    · split
      · rename_i h1; subst h1; simp
      · simp [ih]; tauto

omit [Field K] [LinearOrder K] in
theorem mem_groupLabels (cs : Fin n → Constraint K L) (l : L) : l ∈ groupLabels cs ↔ UsedLabel cs l := by
  have key : ∀ (ls ks : List L), l ∈ ls.foldl (fun ks l => insertKey l ks) ks ↔ l ∈ ls ∨ l ∈ ks := by
    intro ls
    induction ls with
    | nil => intro ks; simp
    | cons h t ih => intro ks; rw [List.foldl_cons, ih, insertKey_mem]; simp; tauto
  unfold groupLabels
  rw [key]
  simp only [List.mem_flatMap, List.mem_finRange, true_and, List.not_mem_nil, or_false, UsedLabel]
  constructor
  · rintro ⟨a, ha⟩
    unfold labelsOf at ha
    split at ha
    · rename_i planes hp
      obtain ⟨p, hp1, hp2⟩ := List.mem_map.mp ha
      exact ⟨a, planes, p, hp, hp1, hp2⟩
    · simp at ha
  · rintro ⟨a, planes, p, h1, h2, h3⟩
    refine ⟨a, ?_⟩
    unfold labelsOf
    rw [h1]
    exact List.mem_map.mpr ⟨p, h2, h3⟩

omit [LinearOrder L] in
theorem anyConstrained_false (cs : Fin n → Constraint K L) (ext : Bool) (h : anyConstrained cs ext = false) :
    ext = false ∧ Unconstrained cs := by
  simp only [anyConstrained, Bool.or_eq_false_iff, List.any_eq_false, List.mem_finRange, true_implies] at h
  refine ⟨h.1, ?_⟩
  intro a
  have ha := h.2 a
  simp only [getDimension] at ha
  by_cases hm : (cs a).moveScale = 0
  · simp [hm] at ha
  · refine ⟨hm, ?_⟩
    cases ht : (cs a).type <;> simp [hm, ht] at ha ⊢

omit [LinearOrder L] in
theorem anyConstrained_of_label (cs : Fin n → Constraint K L) (ext : Bool) (l : L) (h : UsedLabel cs l) :
    anyConstrained cs ext = true := by
  cases hc : anyConstrained cs ext with
  | true => rfl
  | false =>
    obtain ⟨_, hu⟩ := anyConstrained_false cs ext hc
    obtain ⟨a, planes, p, h1, _⟩ := h
    rw [(hu a).2] at h1; cases h1

/-! ### One atom -/

omit [LinearOrder L] in
theorem applyOne_ok (c : Constraint K L) (h : Accepted c) (g : V3 K) : AtomOK c (applyOne c g) := by
  obtain ⟨h1, h2, h3⟩ := h
  refine ⟨?_, ?_, ?_⟩
  · intro hm; simp [applyOne, hm]
  · intro hm d hd
    refine ⟨dot g d / dot d d, ?_⟩
    unfold applyOne
    rw [if_neg hm, hd]
    funext i
    simp only [Pi.smul_apply, smul_eq_mul]
    ring
  · intro hm d hd
    have hdd := h3 d hd
    unfold applyOne
    rw [if_neg hm, hd]
    simp only [dot_eq_inner]
    have : inner3 d (fun i => g i - inner3 g d * d i / inner3 d d) = inner3 d g - inner3 g d * inner3 d d / inner3 d d := by
      simp only [inner3, Fin.sum_univ_three]; ring
    rw [this, mul_div_assoc, div_self hdd, mul_one]
    simp only [inner3, Fin.sum_univ_three]; ring

omit [LinearOrder L] in
theorem applyOne_keep (c : Constraint K L) (h : Accepted c) (g : V3 K) (hg : AtomOK c g) : applyOne c g = g := by
  obtain ⟨h1, h2, h3⟩ := h
  obtain ⟨g1, g2, g3⟩ := hg
  unfold applyOne
  by_cases hm : c.moveScale = 0
  · rw [if_pos hm]; exact (g1 hm).symm
  rw [if_neg hm]
  split
  · rename_i d hd
    obtain ⟨t, ht⟩ := g2 hm d hd
    have hdd := h2 d hd
    funext i
    rw [ht]
    simp only [dot_eq_inner]
    have e : inner3 (t • d) d = t * inner3 d d := by simp only [inner3, Fin.sum_univ_three, Pi.smul_apply, smul_eq_mul]; ring
    rw [e, mul_assoc, mul_comm (inner3 d d), ← mul_assoc, mul_div_assoc, div_self hdd, mul_one]
    rfl
  · rename_i d hd
    have hz := g3 hm d hd
    have e : dot g d = inner3 d g := by rw [dot_eq_inner]; simp only [inner3, Fin.sum_univ_three]; ring
    funext i
    rw [e, hz]; simp
  · rfl

/-! ### Groups -/

omit [LinearOrder K] in
theorem dotM_comm (x y : Motion K n) : dotM x y = dotM y x := by
  unfold dotM; refine Finset.sum_congr rfl fun a _ => ?_; simp only [dot]; ring
omit [LinearOrder K] in
theorem dotM_add (x y z : Motion K n) : dotM x (y + z) = dotM x y + dotM x z := by
  unfold dotM; rw [← Finset.sum_add_distrib]; refine Finset.sum_congr rfl fun a _ => ?_
  simp only [dot, Pi.add_apply]; ring
omit [LinearOrder K] in
theorem dotM_smul (c : K) (x y : Motion K n) : dotM x (c • y) = c * dotM x y := by
  unfold dotM; rw [Finset.mul_sum]; refine Finset.sum_congr rfl fun a _ => ?_
  simp only [dot, Pi.smul_apply, smul_eq_mul]; ring

theorem projectOut_self (eps : K) (he : 0 ≤ eps) (D x : Motion K n) (h : dotM D D > eps) : dotM D (projectOut eps D x) = 0 := by
  have hne : dotM D D ≠ 0 := (lt_of_le_of_lt he h).ne'
  unfold projectOut
  rw [if_pos h, dotM_add, dotM_smul, div_mul_cancel₀ _ hne]
  ring

theorem projectOut_other (eps : K) (D D' x : Motion K n) (h : dotM D' D = 0) : dotM D' (projectOut eps D x) = dotM D' x := by
  unfold projectOut
  split
  · rw [dotM_add, dotM_smul, h]; ring
  · rfl

theorem projectOut_keep (eps : K) (D x : Motion K n) (h : dotM D x = 0) : projectOut eps D x = x := by
  unfold projectOut
  rw [h]; simp

theorem projectOut_atom (eps : K) (D x : Motion K n) (a : Fin n) (h : D a = 0) : projectOut eps D x a = x a := by
  unfold projectOut
  split
  · simp [h]
  · rfl

theorem groups_atom (eps : K) (cs : Fin n → Constraint K L) (a : Fin n) (h : ∀ planes, (cs a).type ≠ .hyperPlane planes)
    (ls : List L) : ∀ x : Motion K n, ls.foldl (fun y l => projectOut eps (groupVec cs l) y) x a = x a := by
  induction ls with
  | nil => intro x; rfl
  | cons l ls ih =>
    intro x
    rw [List.foldl_cons, ih, projectOut_atom]
    unfold groupVec groupEntry
    split
    · rename_i planes hp; exact absurd hp (h planes)
    · rfl

theorem groups_keep (eps : K) (cs : Fin n → Constraint K L) (ls : List L) (x : Motion K n)
    (h : ∀ l ∈ ls, dotM (groupVec cs l) x = 0) : ls.foldl (fun y l => projectOut eps (groupVec cs l) y) x = x := by
  induction ls with
  | nil => rfl
  | cons l ls ih =>
    rw [List.foldl_cons, projectOut_keep eps _ _ (h l (by simp))]
    exact ih fun k hk => h k (by simp [hk])

theorem groups_other (eps : K) (cs : Fin n → Constraint K L) (D : Motion K n) (ls : List L) :
    ∀ x : Motion K n, (∀ l ∈ ls, dotM D (groupVec cs l) = 0) →
    dotM D (ls.foldl (fun y l => projectOut eps (groupVec cs l) y) x) = dotM D x := by
  induction ls with
  | nil => intro x _; rfl
  | cons l ls ih =>
    intro x h
    rw [List.foldl_cons, ih _ fun k hk => h k (by simp [hk]), projectOut_other eps _ _ _ (h l (by simp))]

theorem insertKey_sorted (l : L) (ks : List L) (h : ks.Pairwise (· < ·)) : (insertKey l ks).Pairwise (· < ·) := by
  induction ks with
  | nil => simp [insertKey]
  | cons k t ih =>
    unfold insertKey
    rw [List.pairwise_cons] at h
    split
    · rename_i hlt
      rw [List.pairwise_cons, List.pairwise_cons]
      refine ⟨?_, h⟩
      intro a ha
      rcases List.mem_cons.mp ha with rfl | ha
      · exact hlt
      · exact lt_trans hlt (h.1 a ha)
    · split
      · rw [List.pairwise_cons]; exact h
      · rename_i h1 h2
        rw [List.pairwise_cons]
        refine ⟨?_, ih h.2⟩
        intro a ha
        rcases (insertKey_mem l a t).mp ha with rfl | ha
        · exact lt_of_le_of_ne (not_lt.mp h1) (Ne.symm h2)
        · exact h.1 a ha

omit [Field K] [LinearOrder K] in
theorem groupLabels_nodup (cs : Fin n → Constraint K L) : (groupLabels cs).Nodup := by
  have key : ∀ (ls ks : List L), ks.Pairwise (· < ·) → (ls.foldl (fun ks l => insertKey l ks) ks).Pairwise (· < ·) := by
    intro ls
    induction ls with
    | nil => intro ks h; exact h
    | cons l t ih => intro ks h; exact ih _ (insertKey_sorted l ks h)
  exact (key _ [] List.Pairwise.nil).imp fun h => h.ne

theorem groups_ok (eps : K) (he : 0 ≤ eps) (cs : Fin n → Constraint K L) (ls : List L) (hnd : ls.Nodup)
    (horth : ∀ l ∈ ls, ∀ k ∈ ls, l ≠ k → dotM (groupVec cs l) (groupVec cs k) = 0)
    (l : L) (hl : l ∈ ls) (hbig : dotM (groupVec cs l) (groupVec cs l) > eps) :
    ∀ x : Motion K n, dotM (groupVec cs l) (ls.foldl (fun y l => projectOut eps (groupVec cs l) y) x) = 0 := by
  induction ls with
  | nil => simp at hl
  | cons k ls ih =>
    intro x
    rw [List.foldl_cons]
    rw [List.nodup_cons] at hnd
    rcases List.mem_cons.mp hl with rfl | hl'
    · rw [groups_other, projectOut_self eps he _ _ hbig]
      intro j hj
      exact horth l (by simp) j (by simp [hj]) (fun e => hnd.1 (e ▸ hj))
    · exact ih hnd.2 (fun a ha b hb => horth a (by simp [ha]) b (by simp [hb])) hl' _

/-! ### The property -/

/-- `symm` maps motions that respect the constraints to motions that respect them. -/
def SymmCompatible (cs : Fin n → Constraint K L) (symm : Motion K n → Motion K n) : Prop :=
  ∀ x, ((∀ a, AtomOK (cs a) (x a)) → ∀ a, AtomOK (cs a) (symm x a)) ∧
       (∀ l, UsedLabel cs l → GroupOK cs l x → GroupOK cs l (symm x))

/-- Orthogonal collective constraints: the normals of two groups are orthogonal. -/
def OrthogonalGroups (cs : Fin n → Constraint K L) : Prop :=
  ∀ l k, l ≠ k → ∑ a, inner3 (normalOf (cs a) l) (normalOf (cs a) k) = 0

/-- **C61 (each atom).** After `constrain`, every fixed atom is at rest, every line-constrained atom moves along its line and
every plane-constrained atom in its plane: for all accepted constraints, all motions and all compatible symmetries. -/
theorem C61_atoms (eps : K) (ext : Bool) (cs : Fin n → Constraint K L) (symm : Motion K n → Motion K n)
    (hcs : ∀ a, Accepted (cs a)) (hs : SymmCompatible cs symm) (x : Motion K n) :
    ∀ a, AtomOK (cs a) (constrain eps ext cs symm x a) := by
  refine (hs _).1 ?_
  intro a
  unfold constrainCore
  split
  · by_cases ht : ∃ planes, (cs a).type = .hyperPlane planes
    · obtain ⟨planes, ht⟩ := ht
      refine ⟨?_, ?_, ?_⟩
      · intro hm; have := (hcs a).1 hm; rw [this] at ht; cases ht
      · intro _ d hd; rw [hd] at ht; cases ht
      · intro _ d hd; rw [hd] at ht; cases ht
    · rw [groups_atom eps cs a (by intro planes hp; exact ht ⟨planes, hp⟩)]
      exact applyOne_ok (cs a) (hcs a) _
  · rename_i hc
    obtain ⟨_, hu⟩ := anyConstrained_false cs ext (by simpa using hc)
    obtain ⟨h1, h2⟩ := hu a
    refine ⟨fun h => absurd h h1, ?_, ?_⟩
    · intro _ d hd; rw [h2] at hd; cases hd
    · intro _ d hd; rw [h2] at hd; cases hd

/-- The functional that multiplies with `d`. -/
def along (d : V3 K) : V3 K →ₗ[K] K where
  toFun v := inner3 d v
  map_add' u v := by simp only [inner3, Pi.add_apply, mul_add, Finset.sum_add_distrib]
  map_smul' c v := by simp only [inner3, Pi.smul_apply, smul_eq_mul, RingHom.id_apply, Finset.mul_sum]; exact Finset.sum_congr rfl fun i _ => by ring

omit [LinearOrder L] in
/-- **C61 (degrees of freedom).** The number of dimensions reported for an atom, from which the minimiser's tolerance is scaled, is the dimension of the space of motions that respect the atom's own
constraint. -/
theorem C61_dimension (c : Constraint K L) (hc : Accepted c) :
    ∃ W : Submodule K (V3 K), (∀ v, v ∈ W ↔ AtomOK c v) ∧ Module.finrank K W = getDimension c := by
  by_cases h0 : c.moveScale = 0
  · refine ⟨⊥, fun v => ?_, by simp [getDimension, h0]⟩
    rw [Submodule.mem_bot]
    exact ⟨fun e => ⟨fun _ => e, fun h => absurd h0 h, fun h => absurd h0 h⟩, fun h => h.1 h0⟩
  · match ht : c.type with
    | .linear d =>
      have hd : d ≠ 0 := fun e => hc.2.1 d ht (by rw [e]; simp [inner3])
      refine ⟨Submodule.span K {d}, fun v => ?_, by rw [finrank_span_singleton hd]; simp [getDimension, h0, ht]⟩
      rw [Submodule.mem_span_singleton]
      constructor
      · rintro ⟨t, rfl⟩
        refine ⟨fun h => absurd h h0, fun _ d' hd' => ?_, fun _ d' hd' => ?_⟩
        · rw [ht] at hd'; injection hd' with hd'; exact ⟨t, by rw [hd']⟩
        · rw [ht] at hd'; cases hd'
      · intro h
        obtain ⟨t, e⟩ := h.2.1 h0 d ht
        exact ⟨t, e.symm⟩
    | .planar d =>
      have hd := hc.2.2 d ht
      refine ⟨LinearMap.ker (along d), fun v => ?_, ?_⟩
      · rw [LinearMap.mem_ker]
        constructor
        · intro hv
          refine ⟨fun h => absurd h h0, fun _ d' hd' => ?_, fun _ d' hd' => ?_⟩
          · rw [ht] at hd'; cases hd'
          · rw [ht] at hd'; injection hd' with hd'; rw [← hd']; exact hv
        · intro h; exact h.2.2 h0 d ht
      · have r := LinearMap.finrank_range_add_finrank_ker (along d)
        have surj : LinearMap.range (along d) = ⊤ := by
          rw [LinearMap.range_eq_top]
          intro y
          refine ⟨(y / inner3 d d) • d, ?_⟩
          rw [map_smul]
          show y / inner3 d d * inner3 d d = y
          exact div_mul_cancel₀ _ hd
        rw [surj, finrank_top, Module.finrank_self, Module.finrank_fin_fun] at r
        have e : getDimension c = 2 := by simp [getDimension, h0, ht]
        omega
    | .none =>
      refine ⟨⊤, fun v => ⟨fun _ => ⟨fun h => absurd h h0, fun _ d hd => (by rw [ht] at hd; cases hd), fun _ d hd => (by rw [ht] at hd; cases hd)⟩, fun _ => trivial⟩, ?_⟩
      rw [finrank_top, Module.finrank_fin_fun]; simp [getDimension, h0, ht]
    | .hyperPlane p =>
      refine ⟨⊤, fun v => ⟨fun _ => ⟨fun h => absurd h h0, fun _ d hd => (by rw [ht] at hd; cases hd), fun _ d hd => (by rw [ht] at hd; cases hd)⟩, fun _ => trivial⟩, ?_⟩
      rw [finrank_top, Module.finrank_fin_fun]; simp [getDimension, h0, ht]

example : Accepted (⟨1, .planar (vec 1 2 0)⟩ : Constraint Rat Nat) := by
  refine ⟨by simp, by simp, ?_⟩
  intro d hd; injection hd with hd; rw [← hd]; simp [inner3, Fin.sum_univ_three, vec]; norm_num

/-- **C61 (collective constraints), partial.** If the normals of different groups are orthogonal, every collective constraint
whose normal is not negligible is respected. Missing: groups with non-orthogonal normals, for which it is false, see
`C61_groups_violation`. -/
theorem C61_groups_partial (eps : K) (he : 0 ≤ eps) (ext : Bool) (cs : Fin n → Constraint K L) (symm : Motion K n → Motion K n)
    (hs : SymmCompatible cs symm) (horth : OrthogonalGroups cs) (x : Motion K n) (l : L) (hl : UsedLabel cs l)
    (hbig : ∑ a, inner3 (normalOf (cs a) l) (normalOf (cs a) l) > eps) : GroupOK cs l (constrain eps ext cs symm x) := by
  refine (hs _).2 l hl ?_
  rw [group_iff]
  unfold constrainCore
  rw [if_pos (anyConstrained_of_label cs ext l hl)]
  refine groups_ok eps he cs _ (groupLabels_nodup cs) ?_ l ((mem_groupLabels cs l).mpr hl) ?_ _
  · intro l _ k _ hlk
    have := horth l k hlk
    simpa only [dotM, groupVec, dot_eq_inner, groupEntry_eq] using this
  · simpa only [dotM, groupVec, dot_eq_inner, groupEntry_eq] using hbig

/-- **C61 (no constraint).** If no atom is constrained, the motion has zero sum. -/
theorem C61_mean [CharZero K] (hn : 0 < n) (eps : K) (cs : Fin n → Constraint K L) (symm : Motion K n → Motion K n)
    (hu : Unconstrained cs) (hs : ∀ x : Motion K n, ∑ a, x a = 0 → ∑ a, symm x a = 0) (x : Motion K n) :
    ∑ a, constrain eps false cs symm x a = 0 := by
  refine hs _ ?_
  have hc : anyConstrained cs false = false := by
    simp only [anyConstrained, Bool.false_or, List.any_eq_false, List.mem_finRange, true_implies]
    intro a
    obtain ⟨h1, h2⟩ := hu a
    simp [getDimension, h1, h2]
  unfold constrainCore
  rw [if_neg (by simp [hc])]
  exact Dyn.mean_zero hn _

/-- **C61 (nothing else is lost).** A motion that already respects all constraints (and has zero sum when no atom is
constrained) is not changed. -/
theorem C61_keeps (eps : K) (ext : Bool) (cs : Fin n → Constraint K L) (hcs : ∀ a, Accepted (cs a)) (x : Motion K n)
    (h1 : ∀ a, AtomOK (cs a) (x a)) (h2 : ∀ l, UsedLabel cs l → GroupOK cs l x) (h3 : Unconstrained cs → ∑ a, x a = 0) :
    constrain eps ext cs id x = x := by
  have e1 : perAtom cs x = x := funext fun a => applyOne_keep (cs a) (hcs a) _ (h1 a)
  have e2 : (groupLabels cs).foldl (fun y l => projectOut eps (groupVec cs l) y) x = x := by
    refine groups_keep eps cs _ x ?_
    intro l hl
    rw [← group_iff]
    exact h2 l ((mem_groupLabels cs l).mp hl)
  simp only [constrain, id, constrainCore, e1, e2]
  split
  · rfl
  · rename_i hc
    obtain ⟨_, hu⟩ := anyConstrained_false cs ext (by simpa using hc)
    funext a
    simp [subtractMean, h3 hu]

/-! ### Linearity and idempotence, needed for time-reversible dynamics (C46) -/

omit [LinearOrder K] [LinearOrder L] in
theorem applyOne_add [DecidableEq K] (c : Constraint K L) (g h : V3 K) : applyOne c (g + h) = applyOne c g + applyOne c h := by
  unfold applyOne
  split
  · simp
  · split <;> (try funext i) <;> simp only [dot, Pi.add_apply] <;> ring

omit [LinearOrder K] [LinearOrder L] in
theorem applyOne_smul [DecidableEq K] (c : Constraint K L) (s : K) (g : V3 K) : applyOne c (s • g) = s • applyOne c g := by
  unfold applyOne
  split
  · simp
  · split <;> (try funext i) <;> simp only [dot, Pi.smul_apply, smul_eq_mul] <;> ring

theorem projectOut_add (eps : K) (D x y : Motion K n) : projectOut eps D (x + y) = projectOut eps D x + projectOut eps D y := by
  unfold projectOut
  split
  · rw [dotM_add, neg_add, add_div, add_smul]; abel
  · rfl

theorem projectOut_smul (eps : K) (D : Motion K n) (s : K) (x : Motion K n) : projectOut eps D (s • x) = s • projectOut eps D x := by
  unfold projectOut
  split
  · rw [dotM_smul, smul_add, smul_smul, ← mul_neg, mul_div_assoc]
  · rfl

/-- `constrain` without symmetries as a linear map. -/
def constrainL (eps : K) (ext : Bool) (cs : Fin n → Constraint K L) : Motion K n →ₗ[K] Motion K n where
  toFun := constrain eps ext cs id
  map_add' := by
    intro x y
    have e1 : perAtom cs (x + y) = perAtom cs x + perAtom cs y := funext fun a => applyOne_add _ _ _
    have e2 : ∀ (ls : List L) (x y : Motion K n), ls.foldl (fun y l => projectOut eps (groupVec cs l) y) (x + y)
        = ls.foldl (fun y l => projectOut eps (groupVec cs l) y) x + ls.foldl (fun y l => projectOut eps (groupVec cs l) y) y := by
      intro ls
      induction ls with
      | nil => intro x y; rfl
      | cons l ls ih => intro x y; simp only [List.foldl_cons]; rw [projectOut_add, ih]
    simp only [constrain, id, constrainCore, e1, e2]
    split
    · rfl
    · funext a; simp only [subtractMean, Pi.add_apply, Finset.sum_add_distrib, smul_add]; abel
  map_smul' := by
    intro s x
    have e1 : perAtom cs (s • x) = s • perAtom cs x := funext fun a => applyOne_smul _ _ _
    have e2 : ∀ (ls : List L) (x : Motion K n), ls.foldl (fun y l => projectOut eps (groupVec cs l) y) (s • x)
        = s • ls.foldl (fun y l => projectOut eps (groupVec cs l) y) x := by
      intro ls
      induction ls with
      | nil => intro x; rfl
      | cons l ls ih => intro x; simp only [List.foldl_cons]; rw [projectOut_smul, ih]
    simp only [constrain, id, constrainCore, e1, e2, RingHom.id_apply]
    split
    · rfl
    · funext a; simp only [subtractMean, Pi.smul_apply, ← Finset.smul_sum, smul_sub]
      rw [smul_comm]

/-- With orthogonal, non-negligible groups, `constrain` without symmetries is a projection: constraining twice is
constraining once. -/
theorem C61_idempotent [CharZero K] (eps : K) (he : 0 ≤ eps) (ext : Bool) (cs : Fin n → Constraint K L)
    (hcs : ∀ a, Accepted (cs a)) (horth : OrthogonalGroups cs)
    (hbig : ∀ l, UsedLabel cs l → ∑ a, inner3 (normalOf (cs a) l) (normalOf (cs a) l) > eps) (hext : ext = true → ¬ Unconstrained cs)
    (x : Motion K n) : constrain eps ext cs id (constrain eps ext cs id x) = constrain eps ext cs id x := by
  have hs : SymmCompatible cs (id : Motion K n → Motion K n) := fun x => ⟨fun h => h, fun _ _ h => h⟩
  refine C61_keeps eps ext cs hcs _ (C61_atoms eps ext cs id hcs hs x)
    (fun l hl => C61_groups_partial eps he ext cs id hs horth x l hl (hbig l hl)) ?_
  intro hu
  have hx : ext = false := by
    cases ext with
    | false => rfl
    | true => exact absurd hu (hext rfl)
  subst hx
  by_cases hn : 0 < n
  · exact C61_mean hn eps cs id hu (fun _ h => h) x
  · have : n = 0 := by omega
    subst this
    simp

/-- **C46 with constraints.** Time reversal for the actual `constrain`: any accepted constraints with orthogonal groups. -/
theorem C46_reversible_constrained [CharZero K] (eps : K) (he : 0 ≤ eps) (ext : Bool) (cs : Fin n → Constraint K L)
    (hcs : ∀ a, Accepted (cs a)) (horth : OrthogonalGroups cs)
    (hbig : ∀ l, UsedLabel cs l → ∑ a, inner3 (normalOf (cs a) l) (normalOf (cs a) l) > eps) (hext : ext = true → ¬ Unconstrained cs)
    (env : Dyn.Env K (Motion K n)) (hP : env.constrain = constrain eps ext cs id) (hT : env.thermo = Dyn.noThermo)
    (k : Nat) (pos vel pos' vel' : Motion K n) (h : Dyn.run env k pos vel = .ok (pos', vel')) :
    Dyn.run env k pos' (-vel') = .ok (pos, -(env.R.symm (constrain eps ext cs id (env.R vel)))) :=
  Dyn.C46_reversible env (constrainL eps ext cs) hP (C61_idempotent eps he ext cs hcs horth hbig hext) hT k pos vel pos' vel' h

/-! ### Witnesses -/

/-- One atom in two groups with normals (1,0,0) and (1,1,0). -/
def twoPlanes : Fin 1 → Constraint Rat Nat := fun _ => ⟨1, .hyperPlane [(vec 1 0 0, 1), (vec 1 1 0, 2)]⟩

/-- **C61 is false for the code** when two groups are not orthogonal: the constraints are applied one after the other, so that
the second step reintroduces motion along the normal of the first (IonicMinimizer.cpp:378-383). -/
theorem C61_groups_violation :
    (∀ a, Accepted (twoPlanes a)) ∧ UsedLabel twoPlanes 1 ∧
    ¬ GroupOK twoPlanes 1 (constrain (1/10000000000) false twoPlanes id (fun _ => vec 1 1 0)) ∧
    constrain (1/10000000000) false twoPlanes id (constrain (1/10000000000) false twoPlanes id (fun _ => vec 1 1 0))
      ≠ constrain (1/10000000000) false twoPlanes id (fun _ => vec 1 1 0) := by
  refine ⟨?_, ⟨0, _, (vec 1 0 0, 1), rfl, by simp, rfl⟩, ?_, ?_⟩
  · intro a
    refine ⟨?_, ?_, ?_⟩
    · intro h; simp [twoPlanes] at h
    · intro d h; cases h
    · intro d h; cases h
  · unfold GroupOK; decide +kernel
  · intro h
    have := congrFun (congrFun h 0) 0
    revert this; decide +kernel

/-- Two atoms exchanged by inversion; a collective constraint on the first atom only. -/
def onePlane : Fin 2 → Constraint Rat Nat :=
  fun a => ⟨1, .hyperPlane [(if a = 0 then vec 1 0 0 else vec 0 0 0, 1)]⟩

/-- Symmetrisation of motions under inversion exchanging the two atoms. -/
def invSymm : Motion Rat 2 → Motion Rat 2 := fun x a i => (x a i - x (if a = 0 then 1 else 0) i) / 2

/-- **C61 is false for the code** when the symmetries do not respect a collective constraint: the code accepts the symmetry,
because equivalence of atoms ignores the normals of collective constraints (SpeciesInfo.cpp:54-59, ion.cpp:123), and the final
symmetrisation violates the constraint. -/
theorem C61_symmetry_violation :
    (∀ x, invSymm (invSymm x) = invSymm x) ∧
    ¬ GroupOK onePlane 1 (constrain (1/10000000000) false onePlane invSymm
      (fun a => if a = 0 then vec 1 0 0 else vec (-1) 0 0)) := by
  refine ⟨?_, ?_⟩
  · intro x; funext a i; fin_cases a <;> simp [invSymm] <;> ring
  · unfold GroupOK; decide +kernel

/-- A mixed case: a fixed atom, a line, a plane and two orthogonal groups. -/
def mixedCs : Fin 5 → Constraint Rat Nat := fun a => match a with
  | 0 => ⟨0, .none⟩
  | 1 => ⟨1, .linear (vec 1 1 0)⟩
  | 2 => ⟨1/2, .planar (vec 0 0 2)⟩
  | 3 => ⟨1, .hyperPlane [(vec 1 0 0, 7), (vec 0 1 0, 3)]⟩
  | 4 => ⟨1, .hyperPlane [(vec (-1) 0 0, 7)]⟩

example : (∀ a, Accepted (mixedCs a)) ∧ UsedLabel mixedCs 7 ∧
    (∑ a, inner3 (normalOf (mixedCs a) 7) (normalOf (mixedCs a) 7) = 2) ∧
    (∑ a, inner3 (normalOf (mixedCs a) 7) (normalOf (mixedCs a) 3) = 0) := by
  refine ⟨?_, ⟨3, _, (vec 1 0 0, 7), rfl, by simp, rfl⟩, by decide +kernel, by decide +kernel⟩
  intro a
  fin_cases a <;> refine ⟨?_, ?_, ?_⟩ <;> (try (intro d h; cases h)) <;> (try (intro h; simp [mixedCs] at h ⊢)) <;>
    (try decide +kernel)

end Jdftx.Ion
