import Verif.Spec.LBFGS
import Mathlib.Tactic.Module
import Mathlib.Tactic.Ring
import Mathlib.Tactic.Linarith
import Mathlib.Tactic.FieldSimp
import Mathlib.Algebra.Module.Prod
import Mathlib.Algebra.Order.Field.Rat
import Mathlib.Algebra.Module.Rat

/-! # C67: search directions of L-BFGS -/
namespace Jdftx.Min

set_option linter.unusedSectionVars false
variable {K X V : Type} [Field K] [LinearOrder K] [AddCommGroup V] [Module K V]

/-- The two loops as one recursion, most recent entry first. -/
def twoLoop (o : Obj K X V) (gamma : K) : List (HistEntry K V) → V → V
  | [], v => gamma • v
  | h :: older, v =>
    let a := h.rho * o.dot h.s v
    let w := twoLoop o gamma older (v + (-a) • h.Ky)
    w + (a - h.rho * o.dot h.Ky w) • h.s

theorem up_down (o : Obj K X V) (gamma : K) (l : List (HistEntry K V)) : ∀ (rest : List (HistEntry K V)) (acc : List K) (v : V),
    lbfgsUp o (l.reverse ++ rest) (lbfgsDown o l acc v).1 (gamma • (lbfgsDown o l acc v).2) =
      lbfgsUp o rest acc (twoLoop o gamma l v) := by
  induction l with
  | nil => intro rest acc v; rfl
  | cons h l ih =>
    intro rest acc v
    rw [List.reverse_cons, List.append_assoc]
    show lbfgsUp o (l.reverse ++ ([h] ++ rest)) (lbfgsDown o l (h.rho * o.dot h.s v :: acc) _).1
      (gamma • (lbfgsDown o l (h.rho * o.dot h.s v :: acc) _).2) = _
    rw [ih]
    rfl

/-- The scale factor in effect: one while none is known. -/
def effScale (gamma : K) : K := if gamma ≠ 0 then gamma else 1

theorem dir_eq (o : Obj K X V) (hist : List (HistEntry K V)) (gamma : K) (v : V) :
    lbfgsDir o hist gamma v = -(twoLoop o (effScale gamma) hist.reverse v) := by
  unfold lbfgsDir effScale
  have h := up_down o (if gamma ≠ 0 then gamma else 1) hist.reverse [] [] v
  rw [List.append_nil, List.reverse_reverse] at h
  simp only
  rw [show (if gamma ≠ 0 then gamma • (lbfgsDown o hist.reverse [] v).2 else (lbfgsDown o hist.reverse [] v).2)
    = (if gamma ≠ 0 then gamma else 1) • (lbfgsDown o hist.reverse [] v).2 by split <;> simp]
  rw [h]
  simp [lbfgsUp]

/-- Entries as the textbook has them: `rho` is the inverse of the overlap of the two stored vectors. -/
def Matched (o : Obj K X V) (h : HistEntry K V) : Prop := h.rho = 1 / o.dot h.s h.Ky

theorem twoLoop_spec (o : Obj K X V) (gamma : K) (l : List (HistEntry K V)) (hm : ∀ h ∈ l, Matched o h) :
    ∀ v, twoLoop o gamma l v = invHessian o.dot gamma (l.map fun h => (h.s, h.Ky)) v := by
  induction l with
  | nil => intro v; rfl
  | cons h l ih =>
    intro v
    have hr : h.rho = 1 / o.dot h.s h.Ky := hm h (by simp)
    have ih := ih (fun h' hh => hm h' (List.mem_cons_of_mem _ hh))
    show twoLoop o gamma l _ + _ • h.s = _
    simp only [List.map_cons, invHessian]
    rw [ih, hr]
    have e : v + (-(1 / o.dot h.s h.Ky * o.dot h.s v)) • h.Ky = v - (o.dot h.s v / o.dot h.s h.Ky) • h.Ky := by
      rw [show 1 / o.dot h.s h.Ky * o.dot h.s v = o.dot h.s v / o.dot h.s h.Ky by ring]; module
    rw [e]
    generalize invHessian o.dot gamma (l.map fun h => (h.s, h.Ky)) (v - (o.dot h.s v / o.dot h.s h.Ky) • h.Ky) = w
    rw [show 1 / o.dot h.s h.Ky * o.dot h.s v - 1 / o.dot h.s h.Ky * o.dot h.Ky w
      = o.dot h.s v / o.dot h.s h.Ky - o.dot h.Ky w / o.dot h.s h.Ky by ring]
    module

/-- **C67 (part).** The two loops apply the textbook inverse Hessian to the vector they are given, provided that each
stored `rho` belongs to the two vectors stored with it.  With a preconditioner it does not: the code stores
`1/(s·y)` next to `s` and `K y`; see `C67_precond_violation`. -/
theorem C67_two_loops_partial (o : Obj K X V) (hist : List (HistEntry K V)) (gamma : K)
    (hm : ∀ h ∈ hist, Matched o h) (v : V) :
    lbfgsDir o hist gamma v =
      -(invHessian o.dot (effScale gamma) (hist.reverse.map fun h => (h.s, h.Ky)) v) := by
  rw [dir_eq, twoLoop_spec o _ _ (fun h hh => hm h (List.mem_reverse.mp hh))]

/-- **C67 (part).** Then the direction satisfies the secant equation: a gradient change equal to the last one seen is
answered by the displacement that caused it. -/
theorem C67_secant_partial (o : Obj K X V) (hist : List (HistEntry K V)) (h : HistEntry K V) (gamma : K)
    (hm : ∀ h' ∈ hist ++ [h], Matched o h') (hy : o.dot h.s h.Ky ≠ 0) (hd0 : ∀ u, o.dot u 0 = 0) :
    lbfgsDir o (hist ++ [h]) gamma h.Ky = -h.s := by
  rw [C67_two_loops_partial o _ gamma hm]
  rw [List.reverse_append]
  simp only [List.reverse_cons, List.reverse_nil, List.nil_append, List.cons_append, List.map_cons, invHessian]
  rw [div_self hy, one_smul, sub_self, one_smul]
  have h0 : ∀ l : List (V × V), invHessian o.dot (effScale gamma) l 0 = 0 := by
    intro l
    induction l with
    | nil => simp [invHessian]
    | cons a l ih => simp only [invHessian, hd0, zero_div, zero_smul, sub_zero, ih, add_zero]
  rw [h0, hd0]
  simp

section Order
variable [IsStrictOrderedRing K]

theorem Inner.zero {dot : V → V → K} (hi : Inner dot) (u : V) : dot u 0 = 0 := by
  have := hi.smul 0 u 0; simpa using this

theorem Inner.sub {dot : V → V → K} (hi : Inner dot) (u v w : V) : dot u (v - w) = dot u v - dot u w := by
  rw [sub_eq_add_neg, hi.add, ← neg_one_smul K w, hi.smul]; ring

/-- A stored pair after which the inverse Hessian stays positive, inside the allowed directions. -/
structure Good (o : Obj K X V) (h : HistEntry K V) : Prop where
  matched : Matched o h
  pos : 0 < o.dot h.s h.Ky
  s : o.constrain h.s = h.s
  Ky : o.constrain h.Ky = h.Ky

theorem twoLoop_pos (o : Obj K X V) (hi : Inner o.dot) (hP : Projection o.dot o.constrain) (gamma : K) (hg : 0 < gamma)
    (l : List (HistEntry K V)) (hm : ∀ h ∈ l, Good o h) :
    ∀ v, o.constrain v = v → o.constrain (twoLoop o gamma l v) = twoLoop o gamma l v ∧
      0 ≤ o.dot v (twoLoop o gamma l v) ∧ (v ≠ 0 → 0 < o.dot v (twoLoop o gamma l v)) := by
  induction l with
  | nil =>
    intro v hv
    refine ⟨?_, ?_, ?_⟩
    · show o.constrain (gamma • v) = gamma • v; rw [hP.smul, hv]
    · show 0 ≤ o.dot v (gamma • v)
      rw [hi.smul]
      by_cases h : v = 0
      · subst h; rw [hi.zero]; simp
      · exact (mul_pos hg (hi.pos v h)).le
    · intro h; show 0 < o.dot v (gamma • v)
      rw [hi.smul]; exact mul_pos hg (hi.pos v h)
  | cons h l ih =>
    intro v hv
    have hh := hm h (by simp)
    have ih := ih (fun h' hh => hm h' (List.mem_cons_of_mem _ hh))
    obtain ⟨w, hw⟩ : ∃ w, w = twoLoop o gamma l (v + (-(h.rho * o.dot h.s v)) • h.Ky) := ⟨_, rfl⟩
    obtain ⟨v1, hv1⟩ : ∃ v1, v1 = v + (-(h.rho * o.dot h.s v)) • h.Ky := ⟨_, rfl⟩
    have hc1 : o.constrain v1 = v1 := by rw [hv1, hP.add, hP.smul, hv, hh.Ky]
    obtain ⟨hw1, hw2, hw3⟩ := ih v1 hc1
    rw [← hv1] at hw
    rw [← hw] at hw1 hw2 hw3
    have e : twoLoop o gamma (h :: l) v = w + (h.rho * o.dot h.s v - h.rho * o.dot h.Ky w) • h.s := by
      show twoLoop o gamma l _ + _ • h.s = _
      rw [← hv1, ← hw]
    rw [e]
    have hq : 0 < h.rho := by rw [hh.matched]; exact one_div_pos.mpr hh.pos
    have key : o.dot v (w + (h.rho * o.dot h.s v - h.rho * o.dot h.Ky w) • h.s)
        = o.dot v1 w + h.rho * (o.dot h.s v * o.dot h.s v) := by
      rw [hi.add, hi.smul, hi.comm v1 w, hv1, hi.add, hi.smul, hi.comm v h.s, hi.comm w h.Ky, hi.comm v w]; ring
    refine ⟨?_, ?_, ?_⟩
    · rw [hP.add, hP.smul, hw1, hh.s]
    · rw [key]; exact add_nonneg hw2 (mul_nonneg hq.le (mul_self_nonneg _))
    · intro hne
      rw [key]
      by_cases hz : v1 = 0
      · have hsv : o.dot h.s v ≠ 0 := by
          intro h0
          apply hne
          rw [h0] at hv1
          simp at hv1
          rw [← hv1, hz]
        have := mul_pos hq (mul_self_pos.mpr hsv)
        linarith
      · have := hw3 hz
        have := mul_nonneg hq.le (mul_self_nonneg (o.dot h.s v))
        linarith

theorem effScale_pos {gamma : K} (h : 0 ≤ gamma) : 0 < effScale gamma := by
  unfold effScale
  split
  · exact lt_of_le_of_ne h (Ne.symm ‹_›)
  · exact one_pos

/-- The state of the loop is consistent with the point reached, and what it remembers is good. -/
structure LInv (o : Obj K X V) (s : LState K X V) : Prop where
  E : s.E = o.energy s.x
  g : s.g = o.grad s.x
  Kg : s.Kg = o.kgrad s.x
  gamma : 0 ≤ s.gamma
  hist : ∀ h ∈ s.hist, Good o h

/-- What is needed of the line minimiser: along a descent direction a success leaves the values of the new point behind,
and the gradient has increased along the displacement (the Wolfe condition on the gradient implies it, and so does a
strictly convex objective). -/
def Curved (o : Obj K X V) (p : Params K V) (lm : Linmin K X V) : Prop :=
  ∀ x d alpha E, o.energy x = some E → o.dot (o.grad x) d < 0 →
    let r := lm o p x d (min p.alphaTstart (o.safeStep d)) alpha E (o.grad x) (o.kgrad x)
    r.ok = true → r.E = o.energy r.x ∧ r.g = o.grad r.x ∧ r.Kg = o.kgrad r.x ∧
      0 < o.dot (r.g - o.grad x) (r.alpha • d)

theorem loop_agree (o : Obj K X V) (p : Params K V) (hi : Inner o.dot) (hP : Projection o.dot o.constrain)
    (hK : ∀ x, o.kgrad x = o.constrain (o.grad x)) (hc : p.convergeAll = false) (hn : p.normConv 0 0 = true)
    (lm lm' : Linmin K X V) (hcurv : Curved o p lm)
    (hag : ∀ x d aT a E, o.dot (o.grad x) d < 0 → lm o p x d aT a E (o.grad x) (o.kgrad x) = lm' o p x d aT a E (o.grad x) (o.kgrad x))
    (kill : Nat → Bool) (n : Nat) : ∀ iter (s : LState K X V), LInv o s →
      lbfgsLoop o p lm kill n iter s = lbfgsLoop o p lm' kill n iter s := by
  induction n with
  | zero => intro iter s _; unfold lbfgsLoop; rfl
  | succ n ih =>
    intro iter s0 hs0
    unfold lbfgsLoop
    by_cases hk : kill iter
    · simp only [hk, if_true]
    simp only [hk, Bool.false_eq_true, if_false]
    have hs : LInv o (lreported o iter s0) := by
      unfold lreported
      cases o.report iter s0.x with
      | none => exact hs0
      | some x1 => exact ⟨rfl, rfl, rfl, hs0.gamma, by simp⟩
    revert hs
    generalize lreported o iter s0 = s
    intro hs
    cases hE : s.E with
    | none => rfl
    | some E =>
      simp only
      by_cases hcv : isConverged p (p.normConv (o.dot s.g s.Kg) s.Kg) (Conv.ediffStep p.nEnergyDiff |p.energyDiffThreshold| s.ehist E).2 = true
      · rw [if_pos hcv, if_pos hcv]
      rw [if_neg hcv, if_neg hcv]
      cases hr : makeRoom p.history s.hist with
      | error err => rfl
      | ok hist =>
        simp only
        have hKg : s.Kg ≠ 0 := by
          intro h0
          apply hcv
          have : o.dot s.g s.Kg = 0 := by rw [h0, hi.zero]
          rw [this, h0, hn]
          unfold isConverged
          rw [hc]
          generalize (Conv.ediffStep p.nEnergyDiff |p.energyDiffThreshold| s.ehist E).2 = b
          cases b <;> decide
        have hfix : o.constrain s.Kg = s.Kg := by rw [hs.Kg, hK, hP.idem]
        obtain ⟨hT1, _, hT3⟩ := twoLoop_pos o hi hP _ (effScale_pos hs.gamma) s.hist.reverse
          (fun h hh => hs.hist h (List.mem_reverse.mp hh)) s.Kg hfix
        have hneg : ∀ v : V, -v = (-1 : K) • v := fun v => by simp
        have hd1 : o.constrain (lbfgsDir o s.hist s.gamma s.Kg) = lbfgsDir o s.hist s.gamma s.Kg := by
          rw [dir_eq, hneg, hP.smul, hT1]
        have hdesc : o.dot (o.grad s.x) (o.constrain (lbfgsDir o s.hist s.gamma s.Kg)) < 0 := by
          rw [← hP.adj, ← hK, ← hs.Kg, dir_eq, hneg, hi.smul]
          have := hT3 hKg
          linarith
        rw [hd1] at hdesc ⊢
        have hd1' := hd1
        revert hdesc hd1'
        generalize lbfgsDir o s.hist s.gamma s.Kg = d
        intro hdesc hd1'
        have hgx := hs.g
        have hkx := hs.Kg
        rw [hs.g, hs.Kg, ← hag _ _ _ _ _ hdesc]
        have hcu := hcurv s.x d s.alpha E (by rw [← hs.E, hE]) hdesc
        revert hcu
        generalize lm o p s.x d (min p.alphaTstart (o.safeStep d)) s.alpha E (o.grad s.x) (o.kgrad s.x) = r
        intro hcu
        by_cases hok : r.ok = true
        · rw [if_pos hok, if_pos hok]
          obtain ⟨h1, h2, h3, h4⟩ := hcu hok
          have hsub : ∀ h ∈ hist, h ∈ s.hist := by
            unfold makeRoom at hr
            split at hr
            · split at hr
              · exact absurd hr (by simp)
              · rename_i a t heq
                injection hr with hr
                subst hr
                intro h hh
                rw [heq]
                exact List.mem_cons_of_mem _ hh
            · injection hr with hr
              subst hr
              exact fun h hh => hh
          have ey : (-1 : K) • o.grad s.x + (1 : K) • r.g = r.g - o.grad s.x := by module
          have eKy : (-1 : K) • o.kgrad s.x + (1 : K) • r.Kg = o.constrain (r.g - o.grad s.x) := by
            rw [h3, hK, hK, h2, sub_eq_add_neg, hneg, hP.add, hP.smul]; module
          rw [ey, eKy]
          have hss : o.constrain (r.alpha • d) = r.alpha • d := by rw [hP.smul, hd1']
          have hsy : o.dot (r.alpha • d) (o.constrain (r.g - o.grad s.x)) = o.dot (r.g - o.grad s.x) (r.alpha • d) := by
            rw [hi.comm, hP.adj, hss]
          have hyKy : 0 < o.dot (r.g - o.grad s.x) (o.constrain (r.g - o.grad s.x)) := by
            rw [← hP.idem, ← hP.adj]
            refine hi.pos _ ?_
            intro h0
            rw [h0, hi.zero] at hsy
            rw [← hsy] at h4
            exact lt_irrefl _ h4
          refine ih _ _ ⟨h1, h2, h3, ?_, ?_⟩
          · exact (div_pos h4 hyKy).le
          · intro h hh
            rcases List.mem_append.mp hh with hh | hh
            · exact hs.hist h (hsub h hh)
            · rw [List.mem_singleton] at hh
              subst hh
              refine ⟨?_, ?_, hss, hP.idem _⟩
              · show 1 / _ = 1 / _; rw [hsy]
              · show 0 < _; rw [hsy]; exact h4
        · rw [if_neg hok, if_neg hok]
          by_cases ha : p.abortOnFailedStep = true
          · rw [if_pos ha, if_pos ha]
          rw [if_neg ha, if_neg ha]
          by_cases hh : hist ≠ []
          · rw [if_pos hh, if_pos hh]
            exact ih _ _ ⟨rfl, rfl, rfl, le_refl _, by simp⟩
          · rw [if_neg hh, if_neg hh]

/-- **C67 (part).** L-BFGS only ever searches along descent directions: replacing the line minimiser by any other which
agrees with it along descent directions changes nothing, whatever the objective, the number of iterations, the reports and
the kill signals.  Needed: the preconditioner is the orthogonal projection onto the allowed directions, a vanishing gradient
counts as converged, and successful line minimisations see positive curvature.  Missing: other preconditioners, for which
the claim fails (`C67_precond_violation`). -/
theorem C67_descent_partial (o : Obj K X V) (p : Params K V) (hi : Inner o.dot) (hP : Projection o.dot o.constrain)
    (hK : ∀ x, o.kgrad x = o.constrain (o.grad x)) (hc : p.convergeAll = false) (hn : p.normConv 0 0 = true)
    (lm lm' : Linmin K X V) (hcurv : Curved o p lm)
    (hag : ∀ x d aT a E, o.dot (o.grad x) d < 0 → lm o p x d aT a E (o.grad x) (o.kgrad x) = lm' o p x d aT a E (o.grad x) (o.kgrad x))
    (kill : Nat → Bool) (x : X) : lbfgs o p lm kill x = lbfgs o p lm' kill x :=
  loop_agree o p hi hP hK hc hn lm lm' hcurv hag kill _ _ _ ⟨rfl, rfl, rfl, le_refl _, by simp⟩

end Order

/-! ## Concrete cases -/

/-- The objective |x|²/2 in the plane, with a diagonal preconditioner `diag(a, b)` and the allowed directions given. -/
def bowl (a b : Rat) (P : Rat × Rat → Rat × Rat) : Obj Rat (Rat × Rat) (Rat × Rat) where
  step x d t := x + t • d
  energy x := some ((x.1 * x.1 + x.2 * x.2) / 2)
  grad x := x
  kgrad x := P (a * x.1, b * x.2)
  dot u v := u.1 * v.1 + u.2 * v.2
  constrain := P
  safeStep _ := 1
  report _ _ := none

/-- Line minimisation by a fixed step of one half, two iterations. -/
def halfStep : Params Rat (Rat × Rat) :=
  { nIterations := 2, history := 4, normConv := fun gK _ => gK < 1/1000, energyDiffThreshold := 0, nEnergyDiff := 2, convergeAll := false,
    alphaTstart := 1/2, alphaTmin := 1/1000, updateTestStepSize := true, alphaTreduceFactor := 1/10,
    alphaTincreaseFactor := 3, nAlphaAdjustMax := 3, wolfeEnergy := 1/10000, wolfeGradient := 9/10,
    abortOnFailedStep := false, sqrt := fun x => x }

/-- The same steps, but refusing to start along directions in which the energy does not decrease (as the quadratic and cubic
line minimisers of the code do). -/
def relaxDown : Linmin Rat (Rat × Rat) (Rat × Rat) := fun o p x d aT a E g Kg =>
  if 0 ≤ o.dot g d then ⟨false, x, 0, some E, g, Kg⟩ else linminRelax o p x d aT a E g Kg

theorem bowl_inner (a b : Rat) (P) : Inner (bowl a b P).dot := by
  refine ⟨fun u v => ?_, fun u v w => ?_, fun c u v => ?_, fun v hv => ?_⟩
  · show u.1 * v.1 + u.2 * v.2 = v.1 * u.1 + v.2 * u.2; ring
  · show u.1 * (v.1 + w.1) + u.2 * (v.2 + w.2) = (u.1 * v.1 + u.2 * v.2) + (u.1 * w.1 + u.2 * w.2); ring
  · show u.1 * (c * v.1) + u.2 * (c * v.2) = c * (u.1 * v.1 + u.2 * v.2); ring
  · show 0 < v.1 * v.1 + v.2 * v.2
    by_cases h : v.1 = 0
    · have h2 : v.2 ≠ 0 := fun h2 => hv (Prod.ext h h2)
      have := mul_self_pos.mpr h2
      have := mul_self_nonneg v.1
      linarith
    · have := mul_self_pos.mpr h
      have := mul_self_nonneg v.2
      linarith

theorem bowl_curved : Curved (bowl 1 1 id) halfStep linminRelax := by
  intro x d alpha E _ hd r _
  refine ⟨rfl, rfl, rfl, ?_⟩
  have hm : min halfStep.alphaTstart ((bowl 1 1 id).safeStep d) = 1/2 := by
    show min (1/2 : Rat) 1 = 1/2; norm_num
  show 0 < (bowl 1 1 id).dot (x + (min halfStep.alphaTstart ((bowl 1 1 id).safeStep d)) • d - x)
    ((min halfStep.alphaTstart ((bowl 1 1 id).safeStep d)) • d)
  rw [hm]
  show 0 < (bowl 1 1 id).dot (x + (1/2 : Rat) • d - x) ((1/2 : Rat) • d)
  rw [add_sub_cancel_left]
  refine (bowl_inner 1 1 id).pos _ ?_
  intro h0
  have : d = 0 := by
    have := congrArg (fun v => (2 : Rat) • v) h0
    simpa [smul_smul] using this
  rw [this, (bowl_inner 1 1 id).zero] at hd
  exact lt_irrefl _ hd

/-- The hypotheses of `C67_descent_partial` are met without a preconditioner, for the bowl and a fixed step; in particular
refusing ascent directions makes no difference then. -/
example (kill : Nat → Bool) (x : Rat × Rat) :
    lbfgs (bowl 1 1 id) halfStep linminRelax kill x = lbfgs (bowl 1 1 id) halfStep relaxDown kill x := by
  refine C67_descent_partial _ _ (bowl_inner 1 1 id) ⟨fun _ _ => rfl, fun _ _ => rfl, fun _ => rfl, fun _ _ => rfl⟩ ?_ rfl
    (by decide +kernel) _ _ bowl_curved ?_ kill x
  · intro x; show id (1 * x.1, 1 * x.2) = id x; simp
  · intro x d aT a E hd
    unfold relaxDown
    rw [if_neg (not_le.mpr hd)]

/-- Without a preconditioner the second direction is the one to the minimum (of which half is taken). -/
example : lbfgs (bowl 1 1 id) halfStep linminRelax (fun _ => false) (-3, -1) = .ok ((-3/4, -1/4), some (5/16)) ∧
    Matched (bowl 1 1 id) ⟨(3/2, 1/2), (3/2, 1/2), 2/5⟩ := by
  constructor
  · decide +kernel
  · show (2/5 : Rat) = 1 / ((3/2) * (3/2) + (1/2) * (1/2)); norm_num

/-- **C67 violated** with a preconditioner.  (1) After one step that lowered the energy of |x|²/2 with the positive
preconditioner `diag(1, 4)`, the direction of the second step is an ascent direction, so a line minimiser that insists on
descent gives another result.  (2) Even with a multiple of the identity, two, the secant equation fails: the answer to the
last gradient change is three times the displacement that caused it. -/
theorem C67_precond_violation :
    (lbfgs (bowl 1 4 id) halfStep linminRelax (fun _ => false) (-3, -1) ≠
      lbfgs (bowl 1 4 id) halfStep relaxDown (fun _ => false) (-3, -1)) ∧
    (∀ s y : Rat × Rat, (bowl 2 2 id).dot s y ≠ 0 → s = y →
      lbfgsDir (bowl 2 2 id) [⟨s, (2 : Rat) • y, 1 / (bowl 2 2 id).dot s y⟩]
        ((bowl 2 2 id).dot y s / (bowl 2 2 id).dot y ((2 : Rat) • y)) ((2 : Rat) • y) = (-3 : Rat) • s) := by
  refine ⟨by decide +kernel, ?_⟩
  rintro s y hne rfl
  have hi := bowl_inner 2 2 id
  obtain ⟨n, hn⟩ : ∃ n, n = (bowl 2 2 id).dot s s := ⟨_, rfl⟩
  rw [dir_eq]
  simp only [List.reverse_cons, List.reverse_nil, List.nil_append, twoLoop]
  simp only [hi.smul, hi.add]
  simp only [hi.comm ((2 : Rat) • s), hi.smul]
  rw [← hn] at hne ⊢
  have e1 : 1 / n * (2 * n) = 2 := by field_simp
  have e2 : n / (2 * n) = 1 / 2 := by field_simp
  rw [e1, e2]
  have e3 : effScale (1 / 2 : Rat) = 1 / 2 := by unfold effScale; norm_num
  rw [e3]
  have e4 : (2 : Rat) - 1 / n * (1 / 2 * (2 * (2 * n) + -2 * (2 * (2 * n)))) = 4 := by field_simp; norm_num
  rw [e4]; module

end Jdftx.Min
