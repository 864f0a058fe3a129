import Verif.Spec.Minimize
import Mathlib.Algebra.Order.Field.Basic
import Mathlib.Data.Rat.Sqrt
import Mathlib.Algebra.Order.Ring.Rat
import Mathlib.Algebra.Field.Rat
import Mathlib.Tactic.Linarith
import Mathlib.Tactic.Ring
import Mathlib.Tactic.Module
import Mathlib.Tactic.FieldSimp

/-!
# C36, C37, C41: line minimisation, minimisation and the derivative test
-/
namespace Jdftx.Min

variable {K X V : Type} [Field K] [LinearOrder K]

omit [LinearOrder K] in
theorem Additive.move {o : Obj K X V} (ha : Additive o) (x : X) (d : V) (a b : K) :
    o.step (o.step x d a) d (b - a) = o.step x d b := by
  rw [ha.add]; congr 1; ring

omit [LinearOrder K] in
theorem Additive.undo {o : Obj K X V} (ha : Additive o) (x : X) (d : V) (a : K) :
    o.step (o.step x d a) d (-a) = x := by
  rw [ha.add, add_neg_cancel, ha.zero]

/-! ## The relaxation method -/

omit [Field K] [LinearOrder K] in
/-- **C36 (Relax).** -/
theorem C36_relax (o : Obj K X V) (p : Params K V) (x : X) (d : V) (alphaT alpha E : K) (g Kg : V) :
    ReportsProgress o x d (linminRelax o p x d alphaT alpha E g Kg) := fun _ => rfl

/-! ## The cubic method -/

theorem cubicLoop_progress {o : Obj K X V} (ha : Additive o) (p : Params K V) (d : V) (E0 gdotd0 : K) (x0 : X) (n : Nat) :
    ∀ x alpha alphaPrev alphaState Eprev gdotdPrev, x = o.step x0 d alphaState →
      (cubicLoop o p d E0 gdotd0 n x alpha alphaPrev alphaState Eprev gdotdPrev).x =
        o.step x0 d (cubicLoop o p d E0 gdotd0 n x alpha alphaPrev alphaState Eprev gdotdPrev).alpha := by
  induction n with
  | zero =>
    intro x alpha alphaPrev alphaState Eprev gdotdPrev hx
    unfold cubicLoop
    subst hx
    exact ha.move x0 d alphaState alpha
  | succ n ih =>
    intro x alpha alphaPrev alphaState Eprev gdotdPrev hx
    unfold cubicLoop
    subst hx
    simp only
    rw [ha.move]
    cases h : o.energy (o.step x0 d alpha) with
    | none => exact ih _ _ _ _ _ _ rfl
    | some E =>
      simp only
      split
      · rfl
      · split
        · exact ih _ _ _ _ _ _ rfl
        · exact ih _ _ _ _ _ _ rfl

/-- **C36 (CubicWolfe).** Whatever the landscape, the reported step size is the displacement applied (on failure and on
success). -/
theorem C36_cubic {o : Obj K X V} (ha : Additive o) (p : Params K V) (x : X) (d : V) (alphaT alpha E : K) (g Kg : V) :
    let r := linminCubicWolfe o p x d alphaT alpha E g Kg
    r.x = o.step x d r.alpha ∧ ReportsProgress o x d r := by
  intro r
  have h : r.x = o.step x d r.alpha := by
    show (linminCubicWolfe o p x d alphaT alpha E g Kg).x = _
    unfold r linminCubicWolfe
    simp only
    split
    · exact (ha.zero x d).symm
    · exact cubicLoop_progress ha p d E _ x _ x alphaT 0 0 E _ (ha.zero x d).symm
  exact ⟨h, fun _ => h⟩

/-- On success of the cubic method everything is evaluated at the new state, and either the energy is not above the
starting one or the first Wolfe condition holds for the step taken. -/
theorem cubicLoop_energy (o : Obj K X V) (p : Params K V) (d : V) (E0 gdotd0 : K) (n : Nat) :
    ∀ x alpha alphaPrev alphaState Eprev gdotdPrev,
      let r := cubicLoop o p d E0 gdotd0 n x alpha alphaPrev alphaState Eprev gdotdPrev
      r.ok = true → r.E = o.energy r.x ∧ r.g = o.grad r.x ∧ r.Kg = o.kgrad r.x ∧
        ∃ e, r.E = some e ∧ (e ≤ E0 ∨ e ≤ E0 + p.wolfeEnergy * r.alpha * gdotd0) := by
  induction n with
  | zero =>
    intro x alpha alphaPrev alphaState Eprev gdotdPrev r hr
    unfold r cubicLoop at *
    simp only at hr ⊢
    refine ⟨trivial, trivial, trivial, ?_⟩
    cases h : o.energy (o.step x d (alpha - alphaState)) with
    | none => rw [h] at hr; simp at hr
    | some e =>
      rw [h] at hr
      refine ⟨e, rfl, Or.inl ?_⟩
      simpa using hr
  | succ n ih =>
    intro x alpha alphaPrev alphaState Eprev gdotdPrev
    unfold cubicLoop
    simp only
    cases h : o.energy (o.step x d (alpha - alphaState)) with
    | none => exact ih _ _ _ _ _ _
    | some E =>
      simp only
      split
      · rename_i hw
        intro _
        exact ⟨h.symm, rfl, rfl, E, rfl, Or.inr hw.1⟩
      · split
        · exact ih _ _ _ _ _ _
        · exact ih _ _ _ _ _ _

/-! ## The quadratic method -/

/-- What the test loop guarantees. -/
def TestOK (o : Obj K X V) (x0 : X) (d : V) (E : K) : Test K X → Prop
  | .quit x a => x = o.step x0 d a
  | .accept x _ => ∃ e, o.energy x = some e ∧ e < E
  | .go x ap _ => x = o.step x0 d ap

theorem quadTest_ok [IsStrictOrderedRing K] {o : Obj K X V} (ha : Additive o) (p : Params K V) (hp : 0 < p.alphaTmin) (d : V) (gdotd E : K) (hg : gdotd < 0)
    (x0 : X) (n : Nat) : ∀ x alphaPrev alphaT alpha, x = o.step x0 d alphaPrev →
      TestOK o x0 d E (quadTest o p d gdotd E n x alphaPrev alphaT alpha) := by
  induction n with
  | zero => intro x ap aT a hx; exact hx
  | succ n ih =>
    intro x ap aT a hx
    unfold quadTest
    by_cases h1 : aT < p.alphaTmin
    · simp only [h1, if_true]; exact hx
    simp only [h1, if_false]
    have hpos : 0 < aT := lt_of_lt_of_le hp (not_lt.mp h1)
    subst hx
    rw [ha.move]
    cases h : o.energy (o.step x0 d aT) with
    | none => exact ih _ _ _ _ rfl
    | some ET =>
      simp only
      have hng : aT * gdotd < 0 := mul_neg_of_pos_of_neg hpos hg
      unfold predict
      by_cases h2 : aT * gdotd + E - ET = 0
      · simp only [h2, if_true]
        exact ⟨ET, h, by linarith⟩
      · simp only [h2, if_false]
        split
        · rename_i h3
          refine ⟨ET, h, ?_⟩
          have hnum : 1/2 * (aT * aT) * gdotd < 0 := by
            refine mul_neg_of_pos_of_neg ?_ hg
            exact mul_pos (by norm_num) (mul_pos hpos hpos)
          by_contra hc
          rw [not_lt] at hc
          have hden : aT * gdotd + E - ET < 0 := by linarith
          exact absurd h3 (not_lt.mpr (le_of_lt (div_pos_of_neg_of_neg hnum hden)))
        · split
          · exact ih _ _ _ _ rfl
          · split
            · exact ih _ _ _ _ rfl
            · rfl

/-- What the actual-step loop guarantees: a good step with the displacement reported; or nothing done; or all attempts
failed, and the step size reported is the displacement times one more reduction. -/
theorem quadActual_ok {o : Obj K X V} (ha : Additive o) (p : Params K V) (d : V) (Eorig : K) (x0 : X) (n : Nat) :
    ∀ x ap a E g Kg, x = o.step x0 d ap →
      let r := quadActual o p d Eorig n x ap a E g Kg
      (n = 0 ∧ r = ⟨true, x, a, E, g, Kg⟩) ∨
      (r.E = o.energy r.x ∧ r.g = o.grad r.x ∧ r.Kg = o.kgrad r.x ∧
        ((∃ e, r.E = some e ∧ e ≤ Eorig) ∨
         ((∀ e, r.E = some e → Eorig < e) ∧ ∃ a', r.x = o.step x0 d a' ∧ r.alpha = a' * p.alphaTreduceFactor))) := by
  induction n with
  | zero => intro x ap a E g Kg hx r; exact Or.inl ⟨rfl, rfl⟩
  | succ n ih =>
    intro x ap a E g Kg hx
    have step : ∀ E', (E' = o.energy (o.step x0 d a)) → (∀ e, E' = some e → Eorig < e) →
        let r := quadActual o p d Eorig n (o.step x0 d a) a (a * p.alphaTreduceFactor) E' (o.grad (o.step x0 d a)) (o.kgrad (o.step x0 d a))
        (r.E = o.energy r.x ∧ r.g = o.grad r.x ∧ r.Kg = o.kgrad r.x ∧
        ((∃ e, r.E = some e ∧ e ≤ Eorig) ∨
         ((∀ e, r.E = some e → Eorig < e) ∧ ∃ a', r.x = o.step x0 d a' ∧ r.alpha = a' * p.alphaTreduceFactor))) := by
      intro E' hE' hbad r
      rcases ih _ a (a * p.alphaTreduceFactor) E' (o.grad (o.step x0 d a)) (o.kgrad (o.step x0 d a)) rfl with ⟨h0, h1⟩ | h
      · have : r = _ := h1
        rw [this]
        exact ⟨hE', rfl, rfl, Or.inr ⟨hbad, a, rfl, rfl⟩⟩
      · exact h
    subst hx
    unfold quadActual
    simp only
    rw [ha.move]
    cases h : o.energy (o.step x0 d a) with
    | none => exact Or.inr (step none h.symm (by simp))
    | some E1 =>
      simp only
      split
      · rename_i hb
        exact Or.inr (step (some E1) h.symm (by rintro e ⟨⟩; exact hb))
      · rename_i hb
        exact Or.inr ⟨h.symm, rfl, rfl, Or.inl ⟨E1, rfl, not_lt.mp hb⟩⟩

/-- **C36 (Quad), what holds.** On failure the reported step size is the displacement applied, unless all actual-step
attempts were used up; in that case (at least one attempt, energy non-finite or above the start) the reported step size is
the displacement times one more `alphaTreduceFactor`.  Missing from the full statement: the second case. -/
theorem C36_quad_partial [IsStrictOrderedRing K] {o : Obj K X V} (ha : Additive o) (p : Params K V) (hp : 0 < p.alphaTmin)
    (x : X) (d : V) (alphaT alpha E : K) (g Kg : V) :
    let r := linminQuad o p x d alphaT alpha E g Kg
    r.ok = false → r.x = o.step x d r.alpha ∨
      (∃ a', r.x = o.step x d a' ∧ r.alpha = a' * p.alphaTreduceFactor ∧ ∀ e, o.energy r.x = some e → E < e) := by
  intro r
  unfold r linminQuad
  simp only
  split
  · intro _; exact Or.inl (ha.zero x d).symm
  · rename_i hg
    have ht := quadTest_ok ha p hp d (o.dot g d) E (not_le.mp hg) x p.nAlphaAdjustMax x 0 alphaT alpha (ha.zero x d).symm
    cases hq : quadTest o p d (o.dot g d) E p.nAlphaAdjustMax x 0 alphaT alpha with
    | quit x1 a1 => rw [hq] at ht; intro _; exact Or.inl ht
    | accept x1 a1 => intro h; simp at h
    | go x1 ap a1 =>
      rw [hq] at ht
      simp only
      intro hok
      rcases quadActual_ok ha p d E x p.nAlphaAdjustMax x1 ap a1 (some E) g Kg ht with ⟨_, h1⟩ | ⟨h1, _, _, h2⟩
      · rw [h1] at hok; simp at hok
      · rcases h2 with ⟨e, he, hle⟩ | ⟨hbad, a', h3, h4⟩
        · rw [he] at hok; simp at hok; exact absurd hle (not_le.mpr hok)
        · exact Or.inr ⟨a', h3, h4, fun e he => hbad e (h1.trans he)⟩

/-- Success of the quadratic method. -/
theorem quad_notAbove [IsStrictOrderedRing K] {o : Obj K X V} (ha : Additive o) (p : Params K V) (hp : 0 < p.alphaTmin) (hn : 0 < p.nAlphaAdjustMax)
    (x : X) (d : V) (alphaT alpha E : K) (g Kg : V) : NotAbove o E (linminQuad o p x d alphaT alpha E g Kg) := by
  unfold NotAbove linminQuad
  simp only
  split
  · intro h; simp at h
  · rename_i hg
    have ht := quadTest_ok ha p hp d (o.dot g d) E (not_le.mp hg) x p.nAlphaAdjustMax x 0 alphaT alpha (ha.zero x d).symm
    cases hq : quadTest o p d (o.dot g d) E p.nAlphaAdjustMax x 0 alphaT alpha with
    | quit x1 a1 => intro h; simp at h
    | accept x1 a1 =>
      rw [hq] at ht
      obtain ⟨e, he, hl⟩ := ht
      intro _
      exact ⟨rfl, rfl, rfl, e, he, le_of_lt hl⟩
    | go x1 ap a1 =>
      rw [hq] at ht
      simp only
      intro hok
      rcases quadActual_ok ha p d E x p.nAlphaAdjustMax x1 ap a1 (some E) g Kg ht with ⟨h0, _⟩ | ⟨h1, h2, h3, h4⟩
      · omega
      · refine ⟨h1, h2, h3, ?_⟩
        rcases h4 with h4 | ⟨hbad, _⟩
        · exact h4
        · cases hE : (quadActual o p d E p.nAlphaAdjustMax x1 ap a1 (some E) g Kg).E with
          | none => rw [hE] at hok; simp at hok
          | some e => rw [hE] at hok; simp at hok; exact absurd (hbad e hE) (not_lt.mpr hok)

/-! ## The landscape on which the quadratic method breaks its promise -/

/-- One-dimensional objective with energy 0 at 0 and at 1 and 1 elsewhere, and derivative -1: what a minimiser sees when the
gradient is inaccurate near convergence. -/
def badObj : Obj Rat Rat Rat :=
  { step := fun x d a => x + a * d
    energy := fun x => some (if x = 0 ∨ x = 1 then 0 else 1)
    grad := fun _ => -1
    kgrad := fun _ => -1
    dot := fun a b => a * b
    constrain := id
    safeStep := fun _ => 1000000
    report := fun _ _ => none }

/-- The default parameters of MinimizeParams.h:78-87. -/
def defaultParams : Params Rat Rat :=
  { nIterations := 100, history := 15, normConv := fun _ _ => false, energyDiffThreshold := 0, nEnergyDiff := 2,
    convergeAll := false, alphaTstart := 1, alphaTmin := 1/10^10, updateTestStepSize := true, alphaTreduceFactor := 1/10,
    alphaTincreaseFactor := 3, nAlphaAdjustMax := 3, wolfeEnergy := 1/10^4, wolfeGradient := 9/10, abortOnFailedStep := false,
    sqrt := Rat.sqrt }

theorem badObj_additive : Additive badObj :=
  ⟨fun x d => by simp [badObj], fun x d a b => by simp [badObj]; ring⟩

/-- **C36 is false for the default method**: after a failed quadratic line minimisation with the default parameters,
undoing the reported step does not restore the starting point. -/
theorem C36_quad_violation :
    ∃ (o : Obj Rat Rat Rat) (x d alphaT alpha E : Rat), Additive o ∧ o.energy x = some E ∧
      let r := linminQuad o defaultParams x d alphaT alpha E (o.grad x) (o.kgrad x)
      r.ok = false ∧ r.x ≠ o.step x d r.alpha ∧ o.step r.x d (-r.alpha) ≠ x :=
  ⟨badObj, 0, 1, 1, 1, 0, badObj_additive, by decide +kernel, by decide +kernel⟩

/-! ## The minimiser -/

variable [AddCommGroup V] [Module K V]

/-- A line minimiser keeping both promises at every point with finite energy. -/
def KeepsPromise (o : Obj K X V) (p : Params K V) (lm : Linmin K X V) : Prop :=
  ∀ x d alphaT alpha E, o.energy x = some E →
    ReportsProgress o x d (lm o p x d alphaT alpha E (o.grad x) (o.kgrad x)) ∧
    NotAbove o E (lm o p x d alphaT alpha E (o.grad x) (o.kgrad x))

theorem minLoop_descended {o : Obj K X V} (ha : Additive o) (hr : ∀ i x, o.report i x = none) (p : Params K V) (sch : Scheme)
    (lm : Linmin K X V) (hlm : KeepsPromise o p lm) (kill : Nat → Bool) (x0 : X) (n : Nat) :
    ∀ iter s res, s.E = o.energy s.x → s.g = o.grad s.x → s.Kg = o.kgrad s.x →
      (∀ e0, o.energy x0 = some e0 → ∃ e, s.E = some e ∧ e ≤ e0) →
      minLoop o p sch lm kill n iter s = .ok res → Descended o x0 res := by
  induction n with
  | zero =>
    intro iter s res hE hg hK hd hres
    have hrep : reported o iter s = s := by unfold reported; rw [hr]
    unfold minLoop at hres
    rw [hrep] at hres
    split at hres
    · cases hres; exact ⟨hE, hd⟩
    · simp only at hres
      cases hs : s.E with
      | none => rw [hs] at hres hE hd; cases hres; exact ⟨hE, hd⟩
      | some E =>
        rw [hs] at hres hE hd
        simp only at hres
        split at hres <;> · cases hres; exact ⟨hE, hd⟩
  | succ n ih =>
    intro iter s res hE hg hK hd hres
    have hrep : reported o iter s = s := by unfold reported; rw [hr]
    unfold minLoop at hres
    rw [hrep] at hres
    split at hres
    · cases hres; exact ⟨hE, hd⟩
    · simp only at hres
      cases hs : s.E with
      | none => rw [hs] at hres hE hd; cases hres; exact ⟨hE, hd⟩
      | some E =>
        rw [hs] at hres hE hd
        simp only at hres
        split at hres
        · cases hres; exact ⟨hE, hd⟩
        · generalize (if s.force = true then 0 else betaOf sch (o.dot s.g s.Kg) s.gKNormPrev (o.dot s.gPrev s.Kg) (o.dot s.g s.d) (o.dot s.d s.gPrev)) = beta at hres
          generalize o.constrain (beta • s.d + (-1 : K) • s.Kg) = d at hres
          have hp := hlm s.x d (min s.alphaT (o.safeStep d)) s.alpha E hE.symm
          rw [← hg, ← hK] at hp
          generalize lm o p s.x d (min s.alphaT (o.safeStep d)) s.alpha E s.g s.Kg = r at hres hp
          obtain ⟨hp1, hp2⟩ := hp
          split at hres
          · rename_i hok
            obtain ⟨q1, q2, q3, e, q4, q5⟩ := hp2 hok
            refine ih _ _ _ q1 q2 q3 ?_ hres
            intro e0 h0
            obtain ⟨e1, h1, h2⟩ := hd e0 h0
            cases h1
            exact ⟨e, q4, le_trans q5 h2⟩
          · rename_i hok
            split at hres
            · cases hres
            · have hx : o.step r.x d (-r.alpha) = s.x := by
                rw [hp1 (by simpa using hok), ha.undo]
              rw [hx] at hres
              split at hres
              · refine ih _ _ _ rfl rfl rfl ?_ hres
                rw [← hE]; exact hd
              · cases hres
                exact ⟨rfl, by rw [← hE]; exact hd⟩

/-- **C37, what holds for the conjugate-gradient schemes.** With a line minimiser that keeps its promise, whenever
`minimize` returns — after convergence, after the iteration limit, on a kill signal, or after a failed step — the value
returned is the energy of the final state and not above the initial energy.  Missing from the full statement: the line
minimisers of the code do not always keep the promise, see below. -/
theorem C37_minimize_partial {o : Obj K X V} (ha : Additive o) (hr : ∀ i x, o.report i x = none) (p : Params K V) (sch : Scheme)
    (lm : Linmin K X V) (hlm : KeepsPromise o p lm) (kill : Nat → Bool) (x : X) (res : X × Option K)
    (h : minimize o p sch lm kill x = .ok res) : Descended o x res :=
  minLoop_descended ha hr p sch lm hlm kill x p.nIterations 0 _ res rfl rfl rfl (fun e0 h0 => ⟨e0, h0, le_refl _⟩) h

theorem lbfgsLoop_descended {o : Obj K X V} (ha : Additive o) (hr : ∀ i x, o.report i x = none) (p : Params K V)
    (lm : Linmin K X V) (hlm : KeepsPromise o p lm) (kill : Nat → Bool) (x0 : X) (n : Nat) :
    ∀ iter s res, s.E = o.energy s.x → s.g = o.grad s.x → s.Kg = o.kgrad s.x →
      (∀ e0, o.energy x0 = some e0 → ∃ e, s.E = some e ∧ e ≤ e0) →
      lbfgsLoop o p lm kill n iter s = .ok res → Descended o x0 res := by
  induction n with
  | zero =>
    intro iter s res hE hg hK hd hres
    have hrep : lreported o iter s = s := by unfold lreported; rw [hr]
    unfold lbfgsLoop at hres
    rw [hrep] at hres
    split at hres
    · cases hres; exact ⟨hE, hd⟩
    · simp only at hres
      cases hs : s.E with
      | none => rw [hs] at hres hE hd; cases hres; exact ⟨hE, hd⟩
      | some E =>
        rw [hs] at hres hE hd
        simp only at hres
        split at hres <;> · cases hres; exact ⟨hE, hd⟩
  | succ n ih =>
    intro iter s res hE hg hK hd hres
    have hrep : lreported o iter s = s := by unfold lreported; rw [hr]
    unfold lbfgsLoop at hres
    rw [hrep] at hres
    split at hres
    · cases hres; exact ⟨hE, hd⟩
    · simp only at hres
      cases hs : s.E with
      | none => rw [hs] at hres hE hd; cases hres; exact ⟨hE, hd⟩
      | some E =>
        rw [hs] at hres hE hd
        simp only at hres
        split at hres
        · cases hres; exact ⟨hE, hd⟩
        · cases hm : makeRoom p.history s.hist with
          | error err => rw [hm] at hres; cases hres
          | ok hist =>
            rw [hm] at hres
            simp only at hres
            generalize o.constrain (lbfgsDir o s.hist s.gamma s.Kg) = d at hres
            have hp := hlm s.x d (min p.alphaTstart (o.safeStep d)) s.alpha E hE.symm
            rw [← hg, ← hK] at hp
            generalize lm o p s.x d (min p.alphaTstart (o.safeStep d)) s.alpha E s.g s.Kg = r at hres hp
            obtain ⟨hp1, hp2⟩ := hp
            split at hres
            · rename_i hok
              obtain ⟨q1, q2, q3, e, q4, q5⟩ := hp2 hok
              refine ih _ _ _ q1 q2 q3 ?_ hres
              intro e0 h0
              obtain ⟨e1, h1, h2⟩ := hd e0 h0
              cases h1
              exact ⟨e, q4, le_trans q5 h2⟩
            · rename_i hok
              split at hres
              · cases hres
              · have hx : o.step r.x d (-r.alpha) = s.x := by
                  rw [hp1 (by simpa using hok), ha.undo]
                rw [hx] at hres
                split at hres
                · refine ih _ _ _ rfl rfl rfl ?_ hres
                  rw [← hE]; exact hd
                · cases hres
                  exact ⟨rfl, by rw [← hE]; exact hd⟩

/-- **C37, what holds for L-BFGS**, as above. -/
theorem C37_lbfgs_partial {o : Obj K X V} (ha : Additive o) (hr : ∀ i x, o.report i x = none) (p : Params K V)
    (lm : Linmin K X V) (hlm : KeepsPromise o p lm) (kill : Nat → Bool) (x : X) (res : X × Option K)
    (h : lbfgs o p lm kill x = .ok res) : Descended o x res :=
  lbfgsLoop_descended ha hr p lm hlm kill x p.nIterations 0 _ res rfl rfl rfl (fun e0 h0 => ⟨e0, h0, le_refl _⟩) h

omit [AddCommGroup V] [Module K V] in
/-- The cubic method keeps its promise if the energy threshold of the Wolfe condition is zero. -/
theorem C37_cubic_promise {o : Obj K X V} (ha : Additive o) (p : Params K V) (hw : p.wolfeEnergy = 0) :
    KeepsPromise o p linminCubicWolfe := by
  intro x d alphaT alpha E hE
  refine ⟨(C36_cubic ha p x d alphaT alpha E _ _).2, ?_⟩
  unfold NotAbove linminCubicWolfe
  simp only
  split
  · intro h; simp at h
  · intro hok
    obtain ⟨h1, h2, h3, e, h4, h5⟩ := cubicLoop_energy o p d E _ _ _ _ _ _ _ _ hok
    refine ⟨h1, h2, h3, e, h4, ?_⟩
    rcases h5 with h5 | h5
    · exact h5
    · rw [hw] at h5; simpa using h5

/-- **C37 (CubicWolfe, zero energy threshold).** Unconditional descent for the conjugate-gradient schemes and for
L-BFGS.  Missing: positive `wolfeEnergy` with a backward step, where the property is false (`C37_cubic_violation`). -/
theorem C37_cubic_partial {o : Obj K X V} (ha : Additive o) (hr : ∀ i x, o.report i x = none) (p : Params K V) (hw : p.wolfeEnergy = 0)
    (sch : Scheme) (kill : Nat → Bool) (x : X) (res : X × Option K) :
    (minimize o p sch (getLinmin .cubicWolfe sch) kill x = .ok res → Descended o x res) ∧
    (lbfgs o p (getLinmin .dirUpdateRecommended .lbfgs) kill x = .ok res → Descended o x res) :=
  ⟨C37_minimize_partial ha hr p sch _ (C37_cubic_promise ha p hw) kill x res,
   C37_lbfgs_partial ha hr p _ (C37_cubic_promise ha p hw) kill x res⟩

omit [AddCommGroup V] [Module K V] in
/-- For any non-negative energy threshold a successful cubic line minimisation with a forward step does not raise the
energy. -/
theorem C37_cubic_forward_partial [IsStrictOrderedRing K] {o : Obj K X V} (p : Params K V) (hw : 0 ≤ p.wolfeEnergy)
    (x : X) (d : V) (alphaT alpha E : K) (g Kg : V)
    (hf : 0 ≤ (linminCubicWolfe o p x d alphaT alpha E g Kg).alpha) :
    NotAbove o E (linminCubicWolfe o p x d alphaT alpha E g Kg) := by
  unfold NotAbove
  unfold linminCubicWolfe at hf ⊢
  simp only at hf ⊢
  split
  · intro h; simp at h
  · rename_i hg
    rw [if_neg hg] at hf
    intro hok
    obtain ⟨h1, h2, h3, e, h4, h5⟩ := cubicLoop_energy o p d E _ _ _ _ _ _ _ _ hok
    refine ⟨h1, h2, h3, e, h4, ?_⟩
    rcases h5 with h5 | h5
    · exact h5
    · refine le_trans h5 ?_
      have := mul_nonpos_of_nonneg_of_nonpos (mul_nonneg hw hf) (le_of_lt (not_le.mp hg))
      linarith

/-- **C37 (Quad).** The descent property for the default line minimiser, unless a line minimisation uses up all its
attempts: `hx` says that on this landscape every failed line minimisation reports its progress, which by
`C36_quad_partial` only fails in that case. -/
theorem C37_quad_partial [IsStrictOrderedRing K] {o : Obj K X V} (ha : Additive o) (hr : ∀ i x, o.report i x = none) (p : Params K V)
    (hp : 0 < p.alphaTmin) (hn : 0 < p.nAlphaAdjustMax)
    (hx : ∀ x d alphaT alpha E, o.energy x = some E →
      ReportsProgress o x d (linminQuad o p x d alphaT alpha E (o.grad x) (o.kgrad x)))
    (sch : Scheme) (kill : Nat → Bool) (x : X) (res : X × Option K)
    (h : minimize o p sch (getLinmin .quad sch) kill x = .ok res) : Descended o x res := by
  refine C37_minimize_partial ha hr p sch _ ?_ kill x res h
  intro x d alphaT alpha E hE
  exact ⟨hx x d alphaT alpha E hE, quad_notAbove ha p hp hn x d alphaT alpha E _ _⟩

/-- **C37 is false for the default settings**: Polak-Ribiere conjugate gradients with default parameters end at energy 1
from a starting energy of 0 ("Undoing step" does not undo it). -/
theorem C37_violation :
    ∃ (o : Obj Rat Rat Rat) (x : Rat) (res : Rat × Option Rat), Additive o ∧ (∀ i x, o.report i x = none) ∧
      minimize o defaultParams .polakRibiere (getLinmin .dirUpdateRecommended .polakRibiere) (fun _ => false) x = .ok res ∧
      o.energy x = some 0 ∧ res.2 = some 1 :=
  ⟨badObj, 0, (9/2000, some 1), badObj_additive, fun _ _ => rfl, by decide +kernel, by decide +kernel, rfl⟩

/-- The landscape for the cubic method: starting slope -1; the search is led to -1/8, where the energy is 1/10. -/
def badObjC : Obj Rat Rat Rat :=
  { step := fun x d a => x + a * d
    energy := fun x => some (if x = 1 then -1/5 else if x = 5/8 then -17/40 else if x = -1/8 then 1/10 else 0)
    grad := fun x => if x = 1 then 3/5 else if x = 5/8 then 3/5 else if x = -1/8 then 0 else -1
    kgrad := fun x => if x = 1 then 3/5 else if x = 5/8 then 3/5 else if x = -1/8 then 0 else -1
    dot := fun a b => a * b
    constrain := id
    safeStep := fun _ => 1000000
    report := fun _ _ => none }

/-- **C37 is false for the cubic method** with a positive energy threshold (here 1): a backward step is accepted although
it raises the energy. -/
theorem C37_cubic_violation :
    ∃ (o : Obj Rat Rat Rat) (x : Rat), Additive o ∧ o.energy x = some 0 ∧
      let r := linminCubicWolfe o { defaultParams with wolfeEnergy := 1 } x 1 1 1 0 (o.grad x) (o.kgrad x)
      r.ok = true ∧ r.alpha = -1/8 ∧ r.E = some (1/10) :=
  ⟨badObjC, 0, ⟨fun x d => by simp [badObjC], fun x d a b => by simp [badObjC]; ring⟩, by decide +kernel, by decide +kernel⟩

/-- L-BFGS with an empty history allowance pops from an empty list in its first iteration. -/
theorem C37_lbfgs_no_history :
    lbfgs badObj { defaultParams with history := 0 } (getLinmin .dirUpdateRecommended .lbfgs) (fun _ => false) 0 = .error .ub := by
  decide +kernel

/-- A parabola: all hypotheses of the descent theorems hold and the run reaches the minimum. -/
def parabola : Obj Rat Rat Rat :=
  { badObj with energy := fun x => some (x * x), grad := fun x => 2 * x, kgrad := fun x => 2 * x }

theorem parabola_additive : Additive parabola :=
  ⟨fun x d => by simp [parabola, badObj], fun x d a b => by simp [parabola, badObj]; ring⟩

theorem parabola_test (x0 d : Rat) (hg : 2 * x0 * d < 0) (n : Nat) : ∀ x ap aT a, x = parabola.step x0 d ap →
    match quadTest parabola defaultParams d (2 * x0 * d) (x0 * x0) n x ap aT a with
    | .go _ _ a' => (n = 0 ∧ a' = a) ∨ a' = -x0/d
    | _ => True := by
  have hd : d ≠ 0 := by rintro rfl; simp at hg
  induction n with
  | zero => intro x ap aT a _; exact Or.inl ⟨rfl, rfl⟩
  | succ n ih =>
    intro x ap aT a hx
    unfold quadTest
    by_cases h1 : aT < defaultParams.alphaTmin
    · simp only [h1, if_true]
    simp only [h1, if_false]
    subst hx
    rw [parabola_additive.move]
    have hpos : 0 < aT := lt_of_lt_of_le (by decide +kernel) (not_lt.mp h1)
    have hE : parabola.energy (parabola.step x0 d aT) = some ((x0 + aT * d) * (x0 + aT * d)) := rfl
    have hden : aT * (2 * x0 * d) + x0 * x0 - (x0 + aT * d) * (x0 + aT * d) = -(aT * aT * (d * d)) := by ring
    have hne : -(aT * aT * (d * d)) ≠ 0 := by
      have := hpos.ne'
      simp [hd, this]
    have hpr : predict aT (2 * x0 * d) (x0 * x0) ((x0 + aT * d) * (x0 + aT * d)) = some (-x0 / d) := by
      unfold predict
      rw [hden, if_neg hne]
      congr 1
      have := hpos.ne'
      field_simp
    rw [hE]
    simp only [hpr]
    have key : ∀ aT', match quadTest parabola defaultParams d (2 * x0 * d) (x0 * x0) n (parabola.step x0 d aT) aT aT' (-x0/d) with
        | .go _ _ a' => (n + 1 = 0 ∧ a' = a) ∨ a' = -x0/d
        | _ => True := by
      intro aT'
      have := ih (parabola.step x0 d aT) aT aT' (-x0/d) rfl
      revert this
      cases quadTest parabola defaultParams d (2 * x0 * d) (x0 * x0) n (parabola.step x0 d aT) aT aT' (-x0/d) <;> simp
      rintro (h | h)
      · exact h.2
      · exact h
    by_cases c1 : -x0/d < 0
    · rw [if_pos c1]; trivial
    rw [if_neg c1]
    by_cases c2 : defaultParams.alphaTincreaseFactor < -x0/d / aT
    · rw [if_pos c2]; exact key _
    rw [if_neg c2]
    by_cases c3 : aT / (-x0/d) < defaultParams.alphaTreduceFactor
    · rw [if_pos c3]; exact key _
    rw [if_neg c3]; exact Or.inr rfl

/-- On the parabola every quadratic line minimisation reports its progress, so that the hypotheses of
`C37_quad_partial` (and of `C37_minimize_partial`) are met. -/
theorem parabola_promise : KeepsPromise parabola defaultParams linminQuad := by
  intro x d alphaT alpha E hE
  refine ⟨?_, quad_notAbove parabola_additive defaultParams (by decide +kernel) (by decide +kernel) _ _ _ _ _ _ _⟩
  intro hok
  have hE' : x * x = E := by simpa [parabola] using hE
  subst hE'
  have hgd : parabola.dot (parabola.grad x) d = 2 * x * d := rfl
  unfold linminQuad at hok ⊢
  simp only [hgd] at hok ⊢
  by_cases hg : 0 ≤ 2 * x * d
  · rw [if_pos hg]; exact (parabola_additive.zero x d).symm
  · rw [if_neg hg] at hok ⊢
    rw [not_le] at hg
    have hd : d ≠ 0 := by rintro rfl; simp at hg
    have h1 := quadTest_ok parabola_additive defaultParams (by decide +kernel) d (2 * x * d) (x * x) hg x
      defaultParams.nAlphaAdjustMax x 0 alphaT alpha (parabola_additive.zero x d).symm
    have h2 := parabola_test x d hg defaultParams.nAlphaAdjustMax x 0 alphaT alpha (parabola_additive.zero x d).symm
    revert h1 h2 hok
    cases quadTest parabola defaultParams d (2 * x * d) (x * x) defaultParams.nAlphaAdjustMax x 0 alphaT alpha with
    | quit x1 a1 => intro _ h1 _; exact h1
    | accept x1 a1 => intro h; simp at h
    | go x1 ap a1 =>
      intro hok h1 h2
      exfalso
      have ha : a1 = -x/d := by
        rcases h2 with ⟨h2, _⟩ | h2
        · exact absurd h2 (by decide +kernel)
        · exact h2
      have hx1 : x1 = parabola.step x d ap := h1
      subst hx1
      have e3 : defaultParams.nAlphaAdjustMax = 2 + 1 := rfl
      rw [e3] at hok
      unfold quadActual at hok
      simp only [parabola_additive.move] at hok
      have hE0 : parabola.energy (parabola.step x d a1) = some 0 := by
        show some ((x + a1 * d) * (x + a1 * d)) = some 0
        rw [ha, div_mul_cancel₀ _ hd]; simp
      simp only [hE0] at hok
      have hx2 : ¬ (x * x < 0) := not_lt.mpr (mul_self_nonneg x)
      rw [if_neg hx2] at hok
      simp [hx2] at hok

example : Additive parabola ∧ (∀ i x, parabola.report i x = none) ∧
    minimize parabola { defaultParams with nIterations := 2 } .polakRibiere (getLinmin .quad .polakRibiere) (fun _ => false) 1 = .ok (0, some 0) ∧
    lbfgs parabola { defaultParams with nIterations := 1, wolfeEnergy := 0, alphaTstart := 1/2 } (getLinmin .dirUpdateRecommended .lbfgs) (fun _ => false) 1 = .ok (0, some 0) := by
  refine ⟨⟨fun x d => by simp [parabola, badObj], fun x d a b => by simp [parabola, badObj]; ring⟩, fun _ _ => rfl, ?_, ?_⟩ <;> decide +kernel

/-! ## The derivative test -/

omit [LinearOrder K] [AddCommGroup V] [Module K V] in
theorem fdLoop_spec {o : Obj K X V} (ha : Additive o) (dx : V) (x0 : X) (ds : List K) :
    ∀ x dp, x = o.step x0 dx dp → (fdLoop o dx ds x dp).1 = o.step x0 dx (fdLoop o dx ds x dp).2 := by
  induction ds with
  | nil => intro x dp h; exact h
  | cons a ds ih =>
    intro x dp h
    unfold fdLoop
    refine ih _ _ ?_
    rw [h, ha.move]

omit [LinearOrder K] [AddCommGroup V] [Module K V] in
/-- **C41.** The derivative test restores the state exactly, for every sequence of displacements. -/
theorem C41_restores {o : Obj K X V} (ha : Additive o) (dx : V) (deltas : List K) (x : X) : fdTest o dx deltas x = x := by
  unfold fdTest
  simp only
  rw [fdLoop_spec ha dx x deltas x 0 (ha.zero x dx).symm, ha.undo]

omit [LinearOrder K] [AddCommGroup V] [Module K V] in
/-- **C41.** In particular for the displacements of the code; and the state really is at displacement `delta` whenever the
energy is evaluated for it. -/
theorem C41_visits {o : Obj K X V} (ha : Additive o) (dx : V) (pre : List K) (delta : K) (x : X) :
    (fdLoop o dx (pre ++ [delta]) x 0).1 = o.step x dx delta ∧ fdTest o dx fdDeltas x = x := by
  refine ⟨?_, C41_restores ha dx _ x⟩
  have h := fdLoop_spec ha dx x (pre ++ [delta]) x 0 (ha.zero x dx).symm
  have h2 : ∀ (x : X) (dp : K), (fdLoop o dx (pre ++ [delta]) x dp).2 = delta := by
    clear h
    induction pre with
    | nil => intro x dp; rfl
    | cons a pre ih => intro x dp; exact ih _ _
  rw [h2] at h; exact h

example : fdTest parabola 1 fdDeltas (3 : Rat) = 3 ∧ (fdLoop parabola (1 : Rat) fdDeltas (3 : Rat) 0).1 = 13 := by decide +kernel

end Jdftx.Min
