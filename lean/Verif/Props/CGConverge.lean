import Verif.Props.LinSolve
import Mathlib.Algebra.Order.Field.Basic
import Mathlib.LinearAlgebra.Dimension.Finrank
import Mathlib.LinearAlgebra.FiniteDimensional.Lemmas
import Mathlib.LinearAlgebra.Span.Basic
import Mathlib.Tactic.Linarith
import Mathlib.Tactic.LinearCombination
import Mathlib.Tactic.FieldSimp

/-!
# C83: the conjugate-gradient solvers converge

The model is that of C39 (`Model/LinSolve.lean`).
-/
set_option linter.unusedSectionVars false

namespace Jdftx.Lin

variable {K V : Type} [Field K] [LinearOrder K] [IsStrictOrderedRing K] [AddCommGroup V] [Module K V]

/-! ### Specification -/

/-- A symmetric positive definite inner product, operator and preconditioner. -/
structure SPD (sys : Sys K V) : Prop where
  add : ∀ x y z, sys.dot (x + y) z = sys.dot x z + sys.dot y z
  smul : ∀ (a : K) x y, sys.dot (a • x) y = a * sys.dot x y
  symm : ∀ x y, sys.dot x y = sys.dot y x
  operator_symm : ∀ x y, sys.dot (sys.A x) y = sys.dot x (sys.A y)
  operator_pos : ∀ x, x ≠ 0 → 0 < sys.dot (sys.A x) x
  precond_symm : ∀ x y, sys.dot x (sys.precond y) = sys.dot (sys.precond x) y
  precond_pos : ∀ x, x ≠ 0 → 0 < sys.dot x (sys.precond x)

/-- The energy whose minimum is the solution of `A x = rhs`. -/
def energy (sys : Sys K V) (rhs x : V) : K := sys.dot (sys.A x) x - 2 * sys.dot rhs x

/-- Each state has the smallest energy that can be reached from it by any combination of the steps taken so far (in particular
a smaller one than each state before). -/
def Optimal (sys : Sys K V) (rhs : V) (xs : List V) : Prop :=
  ∀ k, ∀ x, xs[k]? = some x →
    (∀ v ∈ Submodule.span K {v | ∃ i < k, ∃ y z, xs[i]? = some y ∧ xs[i + 1]? = some z ∧ v = z - y}, v ≠ 0 → energy sys rhs x < energy sys rhs (x + v)) ∧
    (∀ y, xs[k + 1]? = some y → y ≠ x)

/-! ### The iteration -/

section iteration
variable (sys : Sys K V) (s0 : St K V)

/-- The state after `k` iterations. -/
def it (k : Nat) : St K V := (solveStep sys)^[k] s0

theorem it_succ (k : Nat) : it sys s0 (k + 1) = solveStep sys (it sys s0 k) := Function.iterate_succ_apply' _ _ _

/-- The direction of iteration `k`. -/
def D (k : Nat) : V := direction (it sys s0 k)

variable {sys}

theorem SPD.zero (h : SPD sys) (y : V) : sys.dot 0 y = 0 := by have := h.smul 0 0 y; simpa using this
theorem SPD.add' (h : SPD sys) (x y z : V) : sys.dot x (y + z) = sys.dot x y + sys.dot x z := by rw [h.symm, h.add, h.symm y, h.symm z]
theorem SPD.smul' (h : SPD sys) (a : K) (x y : V) : sys.dot x (a • y) = a * sys.dot x y := by rw [h.symm, h.smul, h.symm]
theorem SPD.neg (h : SPD sys) (x y : V) : sys.dot (-x) y = -sys.dot x y := by have := h.smul (-1) x y; simpa using this
theorem SPD.neg' (h : SPD sys) (x y : V) : sys.dot x (-y) = -sys.dot x y := by rw [h.symm, h.neg, h.symm]
theorem SPD.sub (h : SPD sys) (x y z : V) : sys.dot (x - y) z = sys.dot x z - sys.dot y z := by rw [sub_eq_add_neg, h.add, h.neg]; ring
theorem SPD.sub' (h : SPD sys) (x y z : V) : sys.dot x (y - z) = sys.dot x y - sys.dot x z := by rw [h.symm, h.sub, h.symm y, h.symm z]
theorem SPD.zero' (h : SPD sys) (y : V) : sys.dot y 0 = 0 := by rw [h.symm, h.zero]

/-- What the local variables are at the start. -/
def Start (sys : Sys K V) (s0 : St K V) : Prop := s0.z = sys.precond s0.r ∧ s0.rdotz = sys.dot s0.r s0.z ∧ s0.rdotzPrev = 0

theorem it_z (hs : Start sys s0) : ∀ k, (it sys s0 k).z = sys.precond (it sys s0 k).r ∧ (it sys s0 k).rdotz = sys.dot (it sys s0 k).r (it sys s0 k).z
  | 0 => ⟨hs.1, hs.2.1⟩
  | k + 1 => by rw [it_succ]; exact ⟨rfl, rfl⟩

theorem D_zero (hs : Start sys s0) : D sys s0 0 = (it sys s0 0).z := by
  unfold D direction
  rw [if_neg (by simpa [it] using hs.2.2)]

theorem D_succ (k : Nat) (h : (it sys s0 k).rdotz ≠ 0) :
    D sys s0 (k + 1) = ((it sys s0 (k + 1)).rdotz / (it sys s0 k).rdotz) • D sys s0 k + (it sys s0 (k + 1)).z := by
  have e : (it sys s0 (k + 1)).rdotzPrev = (it sys s0 k).rdotz := by rw [it_succ]; rfl
  have e2 : (it sys s0 (k + 1)).d = D sys s0 k := by rw [it_succ]; rfl
  show direction (it sys s0 (k + 1)) = _
  unfold direction
  rw [e, if_pos h, e2, one_smul]

theorem r_succ (k : Nat) : (it sys s0 (k + 1)).r = (it sys s0 k).r -
    ((it sys s0 k).rdotz / sys.dot (sys.A (D sys s0 k)) (D sys s0 k)) • sys.A (D sys s0 k) := by
  rw [it_succ]
  show (it sys s0 k).r + (-((it sys s0 k).rdotz / sys.dot (sys.A (D sys s0 k)) (D sys s0 k))) • sys.A (D sys s0 k) = _
  rw [neg_smul, sub_eq_add_neg]

theorem state_succ (k : Nat) : (it sys s0 (k + 1)).state = (it sys s0 k).state +
    ((it sys s0 k).rdotz / sys.dot (sys.A (D sys s0 k)) (D sys s0 k)) • D sys s0 k := by
  rw [it_succ]; rfl

/-- Orthogonality and conjugacy, as long as the residual is not zero. -/
theorem conjugate (h : SPD sys) (hs : Start sys s0) (n : Nat) (hr : ∀ k < n, (it sys s0 k).r ≠ 0) :
    (∀ i < n, sys.dot (it sys s0 n).r (D sys s0 i) = 0) ∧ (∀ i < n, sys.dot (it sys s0 n).r (it sys s0 i).z = 0) ∧
      (∀ i < n, sys.dot (sys.A (D sys s0 i)) (D sys s0 n) = 0) ∧ sys.dot (it sys s0 n).r (D sys s0 n) = (it sys s0 n).rdotz := by
  induction n using Nat.strong_induction_on with
  | _ n ih =>
  match n with
  | 0 =>
    refine ⟨by simp, by simp, by simp, ?_⟩
    rw [D_zero s0 hs, (it_z s0 hs 0).2]
  | n + 1 =>
    have pos : ∀ k ≤ n, 0 < (it sys s0 k).rdotz := by
      intro k hk
      rw [(it_z s0 hs k).2, (it_z s0 hs k).1]
      exact h.precond_pos _ (hr k (by omega))
    have prev : ∀ k ≤ n, _ := fun k hk => ih k (by omega) fun j hj => hr j (by omega)
    have hD : ∀ k ≤ n, 0 < sys.dot (sys.A (D sys s0 k)) (D sys s0 k) := by
      intro k hk
      refine h.operator_pos _ fun e => ?_
      have := (prev k hk).2.2.2
      rw [e, h.zero'] at this
      exact (pos k hk).ne this
    have c1 : ∀ i < n + 1, sys.dot (it sys s0 (n + 1)).r (D sys s0 i) = 0 := by
      intro i hi
      rw [r_succ, h.sub, h.smul]
      by_cases e : i = n
      · subst e
        rw [(prev i le_rfl).2.2.2, div_mul_cancel₀ _ (hD i le_rfl).ne', sub_self]
      · rw [(prev n le_rfl).1 i (by omega), h.operator_symm (D sys s0 n) (D sys s0 i), h.symm (D sys s0 n) (sys.A (D sys s0 i)), (prev n le_rfl).2.2.1 i (by omega)]; ring
    have c2 : ∀ i < n + 1, sys.dot (it sys s0 (n + 1)).r (it sys s0 i).z = 0 := by
      intro i hi
      match i with
      | 0 => rw [← D_zero s0 hs]; exact c1 0 hi
      | i + 1 =>
        have e : (it sys s0 (i + 1)).z = D sys s0 (i + 1) - ((it sys s0 (i + 1)).rdotz / (it sys s0 i).rdotz) • D sys s0 i := by
          rw [D_succ s0 i (pos i (by omega)).ne', add_sub_cancel_left]
        rw [e, h.sub', h.smul', c1 _ hi, c1 _ (by omega)]; ring
    have hnew := D_succ s0 n (pos n le_rfl).ne'
    refine ⟨c1, c2, ?_, ?_⟩
    · intro i hi
      have eA : ∀ i ≤ n, sys.A (D sys s0 i) = (sys.dot (sys.A (D sys s0 i)) (D sys s0 i) / (it sys s0 i).rdotz) • ((it sys s0 i).r - (it sys s0 (i + 1)).r) := by
        intro i hi
        rw [r_succ, sub_sub_cancel, smul_smul, div_mul_div_cancel₀ (pos i hi).ne', div_self (hD i hi).ne', one_smul]
      have swap : ∀ j, sys.dot (it sys s0 j).r (it sys s0 (n + 1)).z = sys.dot (it sys s0 (n + 1)).r (it sys s0 j).z := by
        intro j
        rw [(it_z s0 hs (n + 1)).1, (it_z s0 hs j).1, h.precond_symm, h.symm]
      by_cases e : i = n
      · subst e
        rw [hnew, h.add', h.smul']
        have : sys.dot (sys.A (D sys s0 i)) (it sys s0 (i + 1)).z
            = (sys.dot (sys.A (D sys s0 i)) (D sys s0 i) / (it sys s0 i).rdotz) * -(it sys s0 (i + 1)).rdotz := by
          conv_lhs => rw [eA i le_rfl]
          rw [h.smul, h.sub, swap, c2 i hi, (it_z s0 hs (i + 1)).2, zero_sub]
        rw [this]; ring
      · have hi' : i < n := by omega
        rw [hnew, h.add', h.smul', (prev n le_rfl).2.2.1 i hi', eA i hi'.le, h.smul, h.sub, swap, swap, c2 i hi, c2 (i + 1) (by omega)]; ring
    · rw [hnew, h.add', h.smul', c1 n (by omega), (it_z s0 hs (n + 1)).2]; ring

theorem D_pos (h : SPD sys) (hs : Start sys s0) (k : Nat) (hr : ∀ i ≤ k, (it sys s0 i).r ≠ 0) :
    D sys s0 k ≠ 0 ∧ 0 < (it sys s0 k).rdotz ∧ 0 < sys.dot (sys.A (D sys s0 k)) (D sys s0 k) := by
  have p : 0 < (it sys s0 k).rdotz := by rw [(it_z s0 hs k).2, (it_z s0 hs k).1]; exact h.precond_pos _ (hr k le_rfl)
  have ne : D sys s0 k ≠ 0 := fun e => by
    have := (conjugate s0 h hs k fun i hi => hr i hi.le).2.2.2
    rw [e, h.zero'] at this
    exact p.ne this
  exact ⟨ne, p, h.operator_pos _ ne⟩

/-- Residuals vanish after at most as many iterations as there are dimensions. -/
theorem ends (h : SPD sys) (hs : Start sys s0) [FiniteDimensional K V] : ∃ k ≤ Module.finrank K V, (it sys s0 k).r = 0 := by
  by_contra hc
  push Not at hc
  have conj : ∀ i j, i < j → j ≤ Module.finrank K V → sys.dot (sys.A (D sys s0 i)) (D sys s0 j) = 0 := fun i j hij hj =>
    (conjugate s0 h hs j fun k hk => hc k (by omega)).2.2.1 i hij
  have li : LinearIndependent K fun i : Fin (Module.finrank K V + 1) => D sys s0 i := by
    rw [Fintype.linearIndependent_iff]
    intro c hcs j
    have lin : ∀ (f : Fin (Module.finrank K V + 1) → V) (y : V), sys.dot y (∑ i, f i) = ∑ i, sys.dot y (f i) := by
      intro f y
      let L : V →ₗ[K] K := ⟨⟨fun x => sys.dot y x, fun a b => h.add' y a b⟩, fun a x => h.smul' a y x⟩
      exact map_sum L f Finset.univ
    have z : sys.dot (sys.A (D sys s0 j)) (∑ i, c i • D sys s0 i) = 0 := by rw [hcs, h.zero']
    rw [lin, Finset.sum_eq_single j] at z
    · rw [h.smul'] at z
      have := (D_pos s0 h hs j fun i hi => hc i (by have := j.2; omega)).2.2
      exact (mul_eq_zero.1 z).resolve_right this.ne'
    · intro i _ hij
      rw [h.smul']
      rcases lt_or_gt_of_ne (fun e => hij (Fin.ext e) : (i : Nat) ≠ j) with hlt | hgt
      · rw [h.operator_symm, h.symm, conj i j hlt (by have := j.2; omega), mul_zero]
      · rw [conj j i hgt (by have := i.2; omega), mul_zero]
    · simp
  have := li.fintype_card_le_finrank
  simp at this

theorem it_residual (rhs : V) (h0 : s0.r = residual sys rhs s0.state) : ∀ k, (it sys s0 k).r = residual sys rhs (it sys s0 k).state
  | 0 => h0
  | k + 1 => by rw [it_succ]; exact solveStep_inv sys rhs _ (it_residual rhs h0 k)

theorem energy_add (h : SPD sys) (rhs x v : V) : energy sys rhs (x + v) = energy sys rhs x + sys.dot (sys.A v) v - 2 * sys.dot (residual sys rhs x) v := by
  unfold energy residual
  rw [map_add, h.add, h.add', h.add', h.add', h.sub, h.operator_symm v x, h.symm v]; ring

/-- The states up to `m` iterations, with non-zero residuals before the last, are optimal. -/
theorem it_optimal (h : SPD sys) (hs : Start sys s0) (rhs : V) (h0 : s0.r = residual sys rhs s0.state) (xs : List V)
    (hx : ∀ k x, xs[k]? = some x → x = (it sys s0 k).state) (hr : ∀ k, k + 1 < xs.length → (it sys s0 k).r ≠ 0) : Optimal sys rhs xs := by
  intro k x hk
  have hkl : k < xs.length := (List.getElem?_eq_some_iff.1 hk).1
  have step : ∀ i y z, xs[i]? = some y → xs[i + 1]? = some z →
      z - y = ((it sys s0 i).rdotz / sys.dot (sys.A (D sys s0 i)) (D sys s0 i)) • D sys s0 i := by
    intro i y z hy hz
    rw [hx _ _ hy, hx _ _ hz, state_succ, add_sub_cancel_left]
  refine ⟨fun v hv hne => ?_, fun y hy e => ?_⟩
  · have orth : sys.dot (it sys s0 k).r v = 0 := by
      induction hv using Submodule.span_induction with
      | mem v hv =>
        obtain ⟨i, hi, y, z, hy, hz, rfl⟩ := hv
        rw [step i y z hy hz, h.smul', (conjugate s0 h hs k fun j hj => hr j (by omega)).1 i hi, mul_zero]
      | zero => exact h.zero' _
      | add a b _ _ ha hb =>
        rw [h.add']
        by_cases ea : a = 0
        · by_cases eb : b = 0
          · rw [ea, eb, h.zero', add_zero]
          · rw [ea, h.zero', zero_add, hb eb]
        · by_cases eb : b = 0
          · rw [eb, h.zero', add_zero, ha ea]
          · rw [ha ea, hb eb, add_zero]
      | smul c a _ ha =>
        rw [h.smul']
        by_cases ea : a = 0
        · rw [ea, h.zero', mul_zero]
        · rw [ha ea, mul_zero]
    rw [energy_add h, hx k x hk, ← it_residual s0 rhs h0, orth]
    have := h.operator_pos v hne
    linarith
  · have hkl' : k + 1 < xs.length := (List.getElem?_eq_some_iff.1 hy).1
    have := step k x y hk hy
    rw [e, sub_self] at this
    obtain ⟨d1, d2, d3⟩ := D_pos s0 h hs k fun i hi => hr i (by omega)
    exact (smul_ne_zero (div_pos d2 d3).ne' d1) this.symm

end iteration

/-! ### `solve` -/

/-- The outcome of a run in terms of the iterations. -/
structure Runs (sys : Sys K V) (small : K → Bool) (kill : Nat → Bool) (n iter : Nat) (s : St K V) (o : Out V) : Prop where
  ne : o.trace ≠ []
  states : ∀ k p, o.trace[k]? = some p → p = ((it sys s k).state, (it sys s k).r)
  last : o.trace.getLast?.map Prod.fst = some o.state
  notSmall : ∀ k, 0 < k → k + 1 < o.trace.length → small (it sys s k).rdotz = false
  conv : o.converged = true → small (it sys s (o.trace.length - 1)).rdotz = true ∧ 2 ≤ o.trace.length ∧ o.iters + 2 = iter + o.trace.length
  unconv : o.converged = false → o.iters + 1 = iter + o.trace.length ∧ (o.trace.length = n + 1 ∨ kill o.iters = true) ∧
    ∀ k, 0 < k → k < o.trace.length → small (it sys s k).rdotz = false

theorem it_shift (sys : Sys K V) (s : St K V) (k : Nat) : it sys (solveStep sys s) k = it sys s (k + 1) := rfl

theorem solveLoop_runs (sys : Sys K V) (small : K → Bool) (kill : Nat → Bool) (n : Nat) :
    ∀ iter s, Runs sys small kill n iter s (solveLoop sys small kill n iter s) := by
  have one : ∀ n iter (s : St K V), (1 = n + 1 ∨ kill iter = true) → Runs sys small kill n iter s ⟨s.state, iter, false, [(s.state, s.r)]⟩ := by
    intro n iter s hk
    refine ⟨by simp, ?_, by simp, by intro k h1 h2; simp at h2, by simp, fun _ => ⟨by simp, by simpa using hk, by intro k h1 h2; simp at h2; omega⟩⟩
    intro k p hp
    match k with
    | 0 => simp at hp; rw [← hp]; rfl
    | k + 1 => simp at hp
  induction n with
  | zero => intro iter s; exact one 0 iter s (Or.inl rfl)
  | succ n ih =>
    intro iter s
    unfold solveLoop
    simp only
    by_cases hk : kill iter = true
    · rw [if_pos hk]; exact one (n + 1) iter s (Or.inr hk)
    rw [if_neg hk]
    by_cases hs : small (solveStep sys s).rdotz = true
    · rw [if_pos hs]
      refine ⟨by simp, ?_, by simp, by intro k h1 h2; simp at h2; omega, fun _ => ⟨hs, by simp, by simp⟩, by simp⟩
      intro k p hp
      match k with
      | 0 => simp at hp; rw [← hp]; rfl
      | 1 => simp at hp; rw [← hp]; rfl
      | k + 2 => simp at hp
    · rw [if_neg hs]
      have r := ih (iter + 1) (solveStep sys s)
      generalize solveLoop sys small kill n (iter + 1) (solveStep sys s) = o at *
      have hlen : 0 < o.trace.length := List.length_pos_iff.2 r.ne
      have hs' : small (it sys s 1).rdotz = false := by show small (solveStep sys s).rdotz = false; simpa using hs
      refine ⟨by simp, ?_, ?_, ?_, ?_, ?_⟩
      · intro k p hp
        match k with
        | 0 => simp at hp; rw [← hp]; rfl
        | k + 1 => rw [← it_shift]; exact r.states k p (by simpa using hp)
      · cases ht : o.trace with
        | nil => exact absurd ht r.ne
        | cons a t => have := r.last; rw [ht] at this; simpa [ht] using this
      · intro k h1 h2
        simp only [List.length_cons] at h2
        match k with
        | 1 => exact hs'
        | k + 2 => exact r.notSmall (k + 1) (by omega) (by omega)
      · intro hc
        obtain ⟨c1, c2, c3⟩ := r.conv hc
        refine ⟨?_, by simp; omega, by simp; omega⟩
        rw [it_shift] at c1
        rw [show (((s.state, s.r) :: o.trace).length - 1) = o.trace.length - 1 + 1 by simp; omega]
        exact c1
      · intro hc
        obtain ⟨c1, c2, c3⟩ := r.unconv hc
        refine ⟨by simp; omega, by simpa using c2, ?_⟩
        intro k h1 h2
        simp only [List.length_cons] at h2
        match k with
        | 1 => exact hs'
        | k + 2 => exact c3 (k + 1) (by omega) (by omega)

theorem start_solve (sys : Sys K V) (rhs x0 : V) :
    Start sys ⟨x0, rhs + (-1 : K) • sys.A x0, sys.precond (rhs + (-1 : K) • sys.A x0), rhs + (-1 : K) • sys.A x0, 0,
      sys.dot (rhs + (-1 : K) • sys.A x0) (sys.precond (rhs + (-1 : K) • sys.A x0))⟩ := ⟨rfl, rfl, rfl⟩

theorem small_r (sys : Sys K V) (h : SPD sys) (small : K → Bool) (h0 : small 0 = true) (s : St K V) (hs : Start sys s) (k : Nat)
    (hk : small (it sys s k).rdotz = false) : (it sys s k).r ≠ 0 := by
  intro e
  rw [(it_z s hs k).2, e, h.zero, h0] at hk
  exact absurd hk (by simp)

/-- **C83 (optimality).** With a symmetric positive definite operator and preconditioner, each state that `solve` goes through has the smallest energy among all states that
can be reached from it by combinations of the steps taken so far: no step undoes the progress of an earlier one, and the energy decreases in every
iteration. -/
theorem C83_optimal (sys : Sys K V) (h : SPD sys) (small : K → Bool) (h0 : small 0 = true) (kill : Nat → Bool) (nIter : Nat) (rhs x0 : V) :
    Optimal sys rhs ((solve sys small kill nIter rhs x0).trace.map Prod.fst) := by
  unfold solve
  simp only
  split
  · intro k x hk
    match k with
    | 0 =>
      refine ⟨fun v hv hne => ?_, fun y hy => by simp at hy⟩
      simp at hv
      exact absurd hv hne
    | k + 1 => simp at hk
  · rename_i hns
    have hst := start_solve sys rhs x0
    generalize hs : (⟨x0, rhs + (-1 : K) • sys.A x0, sys.precond (rhs + (-1 : K) • sys.A x0), rhs + (-1 : K) • sys.A x0, 0,
      sys.dot (rhs + (-1 : K) • sys.A x0) (sys.precond (rhs + (-1 : K) • sys.A x0))⟩ : St K V) = s at *
    have r := solveLoop_runs sys small kill nIter 0 s
    generalize solveLoop sys small kill nIter 0 s = o at *
    refine it_optimal s h hst rhs ?_ _ ?_ ?_
    · rw [← hs]; unfold residual; simp only; module
    · intro k x hk
      rw [List.getElem?_map] at hk
      obtain ⟨p, hp, rfl⟩ := Option.map_eq_some_iff.1 hk
      rw [r.states k p hp]
    · intro k hk
      rw [List.length_map] at hk
      refine small_r sys h small h0 s hst k ?_
      match k with
      | 0 => rw [← hs]; simpa [it] using hns
      | k + 1 => exact r.notSmall (k + 1) (by omega) hk

/-- **C83 (convergence).** With a symmetric positive definite operator and preconditioner in `N` dimensions and a tolerance that accepts the exact solution, `solve` announces
convergence within `N` iterations, if it may do that many and is not interrupted; if the tolerance accepts nothing else, the state returned is the solution. -/
theorem C83_converges [FiniteDimensional K V] (sys : Sys K V) (h : SPD sys) (small : K → Bool) (h0 : small 0 = true) (nIter : Nat)
    (hn : Module.finrank K V ≤ nIter) (rhs x0 : V) :
    let o := solve sys small (fun _ => false) nIter rhs x0
    o.converged = true ∧ o.iters ≤ Module.finrank K V - 1 ∧ ((∀ x, small x = true → x = 0) → sys.A o.state = rhs) := by
  have fin : ∀ o, Truthful sys small rhs o → o.converged = true → (∀ x, small x = true → x = 0) → sys.A o.state = rhs := by
    intro o ho hc hsm
    by_contra hne
    have h1 := hsm _ (ho.2 hc)
    have h2 : residual sys rhs o.state ≠ 0 := fun e => hne (by unfold residual at e; exact (sub_eq_zero.1 e).symm)
    exact (h.precond_pos _ h2).ne' h1
  have tr := C39_solve sys small (fun _ => false) nIter rhs x0
  intro o
  have key : o.converged = true ∧ o.iters ≤ Module.finrank K V - 1 := by
    show (solve sys small (fun _ => false) nIter rhs x0).converged = true ∧ (solve sys small (fun _ => false) nIter rhs x0).iters ≤ _
    unfold solve
    simp only
    split
    · exact ⟨rfl, Nat.zero_le _⟩
    · rename_i hns
      have hst := start_solve sys rhs x0
      generalize hs : (⟨x0, rhs + (-1 : K) • sys.A x0, sys.precond (rhs + (-1 : K) • sys.A x0), rhs + (-1 : K) • sys.A x0, 0,
        sys.dot (rhs + (-1 : K) • sys.A x0) (sys.precond (rhs + (-1 : K) • sys.A x0))⟩ : St K V) = s at *
      have r := solveLoop_runs sys small (fun _ => false) nIter 0 s
      generalize solveLoop sys small (fun _ => false) nIter 0 s = o at *
      obtain ⟨k, hk, hrk⟩ := ends s h hst
      have hsm : small (it sys s k).rdotz = true := by rw [(it_z s hst k).2, hrk, h.zero, h0]
      have hk0 : 0 < k := Nat.pos_of_ne_zero fun e => by
        subst e
        rw [← hs] at hsm
        exact hns (by simpa [it] using hsm)
      have hc : o.converged = true := by
        by_contra hc
        obtain ⟨c1, c2, c3⟩ := r.unconv (by simpa using hc)
        rcases c2 with c2 | c2
        · have := c3 k hk0 (by omega)
          rw [hsm] at this; exact absurd this (by simp)
        · exact absurd c2 (by simp)
      obtain ⟨c1, c2, c3⟩ := r.conv hc
      refine ⟨hc, ?_⟩
      by_contra hlt
      have := r.notSmall k hk0 (by omega)
      rw [hsm] at this; exact absurd this (by simp)
  exact ⟨key.1, key.2, fin o tr key.1⟩

/-- **C83 (what is returned).** For every operator, the count returned is the index of the last iteration if convergence was announced, and otherwise the number of
iterations, which is then the limit unless the run was interrupted; and no state before the last passed the test. -/
theorem C83_count (sys : Sys K V) (small : K → Bool) (kill : Nat → Bool) (nIter : Nat) (rhs x0 : V) :
    let o := solve sys small kill nIter rhs x0
    (o.converged = true → o.iters = o.trace.length - 2) ∧
      (o.converged = false → o.iters = o.trace.length - 1 ∧ (o.iters = nIter ∨ kill o.iters = true)) ∧
      ∀ k p, k + 1 < o.trace.length → o.trace[k]? = some p → small (sys.dot p.2 (sys.precond p.2)) = false := by
  intro o
  show ((solve sys small kill nIter rhs x0).converged = true → _) ∧ _
  have e : o = solve sys small kill nIter rhs x0 := rfl
  rw [e]
  unfold solve
  simp only
  split
  · exact ⟨fun _ => rfl, by simp, fun k p hk => by simp at hk⟩
  · rename_i hns
    have hst := start_solve sys rhs x0
    generalize hs : (⟨x0, rhs + (-1 : K) • sys.A x0, sys.precond (rhs + (-1 : K) • sys.A x0), rhs + (-1 : K) • sys.A x0, 0,
      sys.dot (rhs + (-1 : K) • sys.A x0) (sys.precond (rhs + (-1 : K) • sys.A x0))⟩ : St K V) = s at *
    have r := solveLoop_runs sys small kill nIter 0 s
    generalize solveLoop sys small kill nIter 0 s = o at *
    refine ⟨fun hc => ?_, fun hc => ?_, fun k p hk hp => ?_⟩
    · have := (r.conv hc).2.2; omega
    · obtain ⟨c1, c2, c3⟩ := r.unconv hc
      refine ⟨by omega, ?_⟩
      rcases c2 with c2 | c2
      · left; omega
      · exact Or.inr c2
    · have q := r.states k p hp
      rw [q]
      have : small (it sys s k).rdotz = false := by
        match k with
        | 0 => rw [← hs]; simpa [it] using hns
        | k + 1 => exact r.notSmall (k + 1) (by omega) hk
      rw [(it_z s hst k).2, (it_z s hst k).1] at this
      exact this

/-! ### The solver of the perturbation module -/

theorem cgStep_eq (sys : Sys K V) (rec : Bool) (b : V) (iter : Nat) (s : St K V) (h : s.r = residual sys (-b) s.state) :
    cgStep sys rec b iter s = solveStep sys s := by
  have e : (cgStep sys rec b iter s).r = (solveStep sys s).r := by
    rw [cgStep_inv sys rec b iter s h, solveStep_inv sys (-b) s h]; rfl
  have e2 : cgStep sys rec b iter s = ⟨(solveStep sys s).state, (cgStep sys rec b iter s).r, sys.precond (cgStep sys rec b iter s).r, (solveStep sys s).d,
    (solveStep sys s).rdotzPrev, sys.dot (cgStep sys rec b iter s).r (sys.precond (cgStep sys rec b iter s).r)⟩ := rfl
  rw [e2, e]; rfl

/-- Iteration `k` increased the error. -/
def Inc (sys : Sys K V) (err : K → K) (s0 : St K V) (k : Nat) : Prop := err (it sys s0 k).rdotz < err (it sys s0 (k + 1)).rdotz

/-- What the bookkeeping knows before iteration `iter`. -/
structure BInv (sys : Sys K V) (err : K → K) (s0 : St K V) (iter : Nat) (best : Best K V) : Prop where
  prev : best.errPrev = err (it sys s0 iter).rdotz
  count : ∀ j < best.consec, j + 1 ≤ iter ∧ Inc sys err s0 (iter - 1 - j)
  none : best.consec = 0 → iter = 0 ∨ ¬Inc sys err s0 (iter - 1)
  minima : ∀ k < iter, Inc sys err s0 k → (k = 0 ∨ ¬Inc sys err s0 (k - 1)) → best.optresidual ≤ (it sys s0 k).rdotz

/-- The outcome of a run of `CG`. -/
structure CgRuns (sys : Sys K V) (small : K → Bool) (err : K → K) (bypass : Bool) (kill : Nat → Bool) (n iter : Nat) (s0 : St K V) (o : Out V × Best K V) : Prop where
  ne : o.1.trace ≠ []
  states : ∀ k p, o.1.trace[k]? = some p → p = ((it sys s0 (iter + k)).state, (it sys s0 (iter + k)).r)
  notSmall : ∀ k, 0 < k → k + 1 < o.1.trace.length → small (it sys s0 (iter + k)).rdotz = false
  conv : o.1.converged = true → small (it sys s0 (iter + (o.1.trace.length - 1))).rdotz = true ∧ 2 ≤ o.1.trace.length ∧ o.1.iters + 2 = iter + o.1.trace.length
  unconv : o.1.converged = false → (∀ k, 0 < k → k < o.1.trace.length → small (it sys s0 (iter + k)).rdotz = false) ∧
    ((o.1.iters + 1 = iter + o.1.trace.length ∧ (o.1.trace.length = n + 1 ∨ kill o.1.iters = true)) ∨
      (o.1.iters + 2 = iter + o.1.trace.length ∧ bypass = false ∧ 2 ≤ o.1.iters ∧ Inc sys err s0 o.1.iters ∧ Inc sys err s0 (o.1.iters - 1) ∧ Inc sys err s0 (o.1.iters - 2)))
  minima : o.1.converged = false → ∀ k, k + 1 < iter + o.1.trace.length → Inc sys err s0 k → (k = 0 ∨ ¬Inc sys err s0 (k - 1)) → o.2.optresidual ≤ (it sys s0 k).rdotz
  state : o.1.converged = false → 0 < o.2.optiter ∨ o.1.trace.getLast?.map Prod.fst = some o.1.state

theorem BInv.step (sys : Sys K V) (err : K → K) (s0 : St K V) (iter : Nat) (best : Best K V) (hb : BInv sys err s0 iter best) :
    BInv sys err s0 (iter + 1) { cgBest sys err iter (it sys s0 iter) (it sys s0 (iter + 1)) best with errPrev := err (it sys s0 (iter + 1)).rdotz } := by
  have hp : (it sys s0 (iter + 1)).rdotzPrev = (it sys s0 iter).rdotz := by rw [it_succ]; rfl
  unfold cgBest
  simp only [hb.prev, hp]
  by_cases hi : Inc sys err s0 iter
  · have hi' : err (it sys s0 iter).rdotz < err (it sys s0 (iter + 1)).rdotz := hi
    rw [if_pos hi']
    refine ⟨rfl, ?_, by simp, ?_⟩
    · intro j hj
      simp only at hj
      match j with
      | 0 => exact ⟨by omega, by simpa using hi⟩
      | j + 1 =>
        have hj' : j < best.consec := by omega
        obtain ⟨c1, c2⟩ := hb.count j hj'
        exact ⟨by omega, by rw [show iter + 1 - 1 - (j + 1) = iter - 1 - j by omega]; exact c2⟩
    · intro k hk hik hl
      by_cases hki : k = iter
      · subst hki
        have hz : best.consec = 0 := by
          by_contra hne
          obtain ⟨c1, c2⟩ := hb.count 0 (by omega)
          rcases hl with rfl | hl
          · omega
          · exact hl c2
        split
        · exact le_rfl
        · next hc => simp only at hc ⊢; push Not at hc; exact hc hz
      · have := hb.minima k (by omega) hik hl
        split
        · next hc => simp only; exact le_trans hc.2.le this
        · exact this
  · have hi' : ¬ err (it sys s0 iter).rdotz < err (it sys s0 (iter + 1)).rdotz := hi
    rw [if_neg hi']
    refine ⟨rfl, by simp, fun _ => Or.inr (by simpa using hi), ?_⟩
    intro k hk hik hl
    by_cases hki : k = iter
    · subst hki; exact absurd hik hi
    · exact hb.minima k (by omega) hik hl

theorem cgLoop_runs (sys : Sys K V) (small : K → Bool) (err : K → K) (rec bypass : Bool) (kill : Nat → Bool) (b : V) (s0 : St K V)
    (h0 : s0.r = residual sys (-b) s0.state) (n : Nat) :
    ∀ iter best, BInv sys err s0 iter best → CgRuns sys small err bypass kill n iter s0 (cgLoop sys small err rec bypass kill b n iter (it sys s0 iter) best) := by
  have one : ∀ n iter (best : Best K V), BInv sys err s0 iter best → (1 = n + 1 ∨ kill iter = true) → CgRuns sys small err bypass kill n iter s0
      (⟨if 0 < best.optiter then best.optstate else (it sys s0 iter).state, iter, false, [((it sys s0 iter).state, (it sys s0 iter).r)]⟩, best) := by
    intro n iter best hb hk
    refine ⟨by simp, ?_, by intro k h1 h2; simp at h2, by simp,
      fun _ => ⟨by intro k h1 h2; simp at h2; omega, Or.inl ⟨by simp, by simpa using hk⟩⟩, fun _ k hk => hb.minima k (by simpa using hk), fun _ => ?_⟩
    · intro k p hp
      match k with
      | 0 => simp at hp; rw [← hp]; rfl
      | k + 1 => simp at hp
    · by_cases hc : 0 < best.optiter
      · exact Or.inl hc
      · right; simp [hc]
  induction n with
  | zero => intro iter best hb; exact one 0 iter best hb (Or.inl rfl)
  | succ n ih =>
    intro iter best hb
    unfold cgLoop
    simp only
    by_cases hk : kill iter = true
    · rw [if_pos hk]; exact one (n + 1) iter best hb (Or.inr hk)
    rw [if_neg hk]
    rw [cgStep_eq sys rec b iter _ (it_residual s0 (-b) h0 iter), ← it_succ]
    have two : ∀ k p, [((it sys s0 iter).state, (it sys s0 iter).r), ((it sys s0 (iter + 1)).state, (it sys s0 (iter + 1)).r)][k]? = some p →
        p = ((it sys s0 (iter + k)).state, (it sys s0 (iter + k)).r) := by
      intro k p hp
      match k with
      | 0 => simp at hp; rw [← hp]; rfl
      | 1 => simp at hp; rw [← hp]
      | k + 2 => simp at hp
    by_cases hs : small (it sys s0 (iter + 1)).rdotz = true
    · rw [if_pos hs]
      exact ⟨by simp, two, by intro k h1 h2; simp at h2; omega, fun _ => ⟨hs, by simp, by simp⟩, by simp, by simp, by simp⟩
    · rw [if_neg hs]
      have hs' : small (it sys s0 (iter + 1)).rdotz = false := by simpa using hs
      have hb1 := BInv.step sys err s0 iter best hb
      by_cases hg : 3 ≤ (cgBest sys err iter (it sys s0 iter) (it sys s0 (iter + 1)) best).consec ∧ bypass = false
      · rw [if_pos hg]
        refine ⟨by simp, two, by intro k h1 h2; simp at h2; omega, by simp, fun _ => ⟨?_, Or.inr ⟨by simp, hg.2, ?_⟩⟩, fun _ k hk => hb1.minima k (by simp at hk; omega), fun _ => ?_⟩
        · intro k h1 h2
          simp at h2
          rw [show k = 1 by omega]; exact hs'
        · have a0 := hb1.count 0 (by simp only; omega)
          have a1 := hb1.count 1 (by simp only; omega)
          have a2 := hb1.count 2 (by simp only; omega)
          refine ⟨by simp only; omega, ?_, ?_, ?_⟩
          · simpa using a0.2
          · have := a1.2; simpa using this
          · have := a2.2; simpa using this
        · by_cases hc : 0 < (cgBest sys err iter (it sys s0 iter) (it sys s0 (iter + 1)) best).optiter
          · exact Or.inl hc
          · right; simp [hc]
      · rw [if_neg hg]
        have r := ih (iter + 1) _ hb1
        generalize cgLoop sys small err rec bypass kill b n (iter + 1) (it sys s0 (iter + 1))
          { cgBest sys err iter (it sys s0 iter) (it sys s0 (iter + 1)) best with errPrev := err (it sys s0 (iter + 1)).rdotz } = o at *
        have hlen : 0 < o.1.trace.length := List.length_pos_iff.2 r.ne
        refine ⟨by simp, ?_, ?_, ?_, ?_, ?_, ?_⟩
        · intro k p hp
          match k with
          | 0 => simp at hp; rw [← hp]; rfl
          | k + 1 => rw [show iter + (k + 1) = iter + 1 + k by omega]; exact r.states k p (by simpa using hp)
        · intro k h1 h2
          simp only [List.length_cons] at h2
          match k with
          | 1 => exact hs'
          | k + 2 => rw [show iter + (k + 2) = iter + 1 + (k + 1) by omega]; exact r.notSmall (k + 1) (by omega) (by omega)
        · intro hc
          obtain ⟨c1, c2, c3⟩ := r.conv hc
          refine ⟨?_, by simp; omega, by simp; omega⟩
          simp only [List.length_cons, Nat.add_sub_cancel]
          rw [show iter + o.1.trace.length = iter + 1 + (o.1.trace.length - 1) by omega]
          exact c1
        · intro hc
          obtain ⟨c3, c12⟩ := r.unconv hc
          refine ⟨?_, ?_⟩
          · intro k h1 h2
            simp only [List.length_cons] at h2
            match k with
            | 1 => exact hs'
            | k + 2 => rw [show iter + (k + 2) = iter + 1 + (k + 1) by omega]; exact c3 (k + 1) (by omega) (by omega)
          · rcases c12 with ⟨c1, c2⟩ | ⟨c1, c2⟩
            · exact Or.inl ⟨by simp; omega, by simpa using c2⟩
            · exact Or.inr ⟨by simp; omega, c2⟩
        · intro hc k hk
          exact r.minima hc k (by simp at hk; omega)
        · intro hc
          rcases r.state hc with c | c
          · exact Or.inl c
          · right
            cases ht : o.1.trace with
            | nil => exact absurd ht r.ne
            | cons a t => rw [ht] at c; simpa [ht] using c

/-- The residual measure of a pair (state, residual). -/
def measure (sys : Sys K V) (p : V × V) : K := sys.dot p.2 (sys.precond p.2)

theorem cg_runs (sys : Sys K V) (small : K → Bool) (err : K → K) (rec bypass : Bool) (kill : Nat → Bool) (nIter : Nat) (b x0 : V) :
    ∃ s0, Start sys s0 ∧ s0.state = x0 ∧ s0.r = residual sys (-b) x0 ∧
      ((small s0.rdotz = true ∧ (cg sys small err rec bypass kill nIter b x0).1 = ⟨x0, 0, true, [(x0, s0.r)]⟩) ∨
        (small s0.rdotz = false ∧ CgRuns sys small err bypass kill nIter 0 s0 (cg sys small err rec bypass kill nIter b x0))) := by
  have e : (-1 : K) • (sys.A x0 + (1 : K) • b) = residual sys (-b) x0 := by unfold residual; module
  refine ⟨⟨x0, residual sys (-b) x0, sys.precond (residual sys (-b) x0), 0, 0, sys.dot (residual sys (-b) x0) (sys.precond (residual sys (-b) x0))⟩, ⟨rfl, rfl, rfl⟩, rfl, rfl, ?_⟩
  unfold cg
  simp only [e]
  by_cases hs : small (sys.dot (residual sys (-b) x0) (sys.precond (residual sys (-b) x0))) = true
  · left; rw [if_pos hs]; exact ⟨hs, rfl⟩
  · right
    rw [if_neg hs]
    refine ⟨by simpa using hs, ?_⟩
    exact cgLoop_runs sys small err rec bypass kill b _ rfl nIter 0 _ ⟨rfl, by simp, fun _ => Or.inl rfl, by simp⟩

/-- **C83 (optimality, perturbation solver).** As `C83_optimal`, for `A x + b = 0`, with or without recomputation of residuals. -/
theorem C83_cg_optimal (sys : Sys K V) (h : SPD sys) (small : K → Bool) (h0 : small 0 = true) (err : K → K) (rec bypass : Bool) (kill : Nat → Bool) (nIter : Nat) (b x0 : V) :
    Optimal sys (-b) ((cg sys small err rec bypass kill nIter b x0).1.trace.map Prod.fst) := by
  obtain ⟨s0, hst, hx, hr, c | c⟩ := cg_runs sys small err rec bypass kill nIter b x0
  · rw [c.2]
    intro k x hk
    match k with
    | 0 =>
      refine ⟨fun v hv hne => ?_, fun y hy => by simp at hy⟩
      simp at hv
      exact absurd hv hne
    | k + 1 => simp at hk
  · obtain ⟨hns, r⟩ := c
    refine it_optimal s0 h hst (-b) (by rw [hr, hx]) _ ?_ ?_
    · intro k x hk
      rw [List.getElem?_map] at hk
      obtain ⟨p, hp, rfl⟩ := Option.map_eq_some_iff.1 hk
      rw [r.states k p hp, zero_add]
    · intro k hk
      rw [List.length_map] at hk
      refine small_r sys h small h0 s0 hst k ?_
      match k with
      | 0 => exact hns
      | k + 1 => have := r.notSmall (k + 1) (by omega) hk; rwa [zero_add] at this

/-- **C83 (convergence, perturbation solver).** As `C83_converges`, when termination on growing residuals is switched off. -/
theorem C83_cg_converges [FiniteDimensional K V] (sys : Sys K V) (h : SPD sys) (small : K → Bool) (h0 : small 0 = true) (err : K → K) (rec : Bool) (nIter : Nat)
    (hn : Module.finrank K V ≤ nIter) (b x0 : V) :
    let o := (cg sys small err rec true (fun _ => false) nIter b x0).1
    o.converged = true ∧ o.iters ≤ Module.finrank K V - 1 ∧ ((∀ x, small x = true → x = 0) → sys.A o.state + b = 0) := by
  have tr := (C39_cg sys small err rec true (fun _ => false) nIter b x0).1
  intro o
  have key : o.converged = true ∧ o.iters ≤ Module.finrank K V - 1 := by
    obtain ⟨s, hst, hx, hr, c | c⟩ := cg_runs sys small err rec true (fun _ => false) nIter b x0
    · have : o = _ := c.2
      rw [this]; exact ⟨rfl, Nat.zero_le _⟩
    · obtain ⟨hns, r⟩ := c
      obtain ⟨k, hk, hrk⟩ := ends s h hst
      have hsm : small (it sys s (0 + k)).rdotz = true := by rw [zero_add, (it_z s hst k).2, hrk, h.zero, h0]
      have hk0 : 0 < k := Nat.pos_of_ne_zero fun e => by
        subst e
        rw [show (it sys s (0 + 0)).rdotz = s.rdotz from rfl, hns] at hsm
        exact absurd hsm (by simp)
      have hc : o.converged = true := by
        by_contra hc
        obtain ⟨c3, c12⟩ := r.unconv (by simpa using hc)
        rcases c12 with ⟨c1, c2⟩ | ⟨_, c2, _⟩
        · rcases c2 with c2 | c2
          · have := c3 k hk0 (by omega)
            rw [hsm] at this; exact absurd this (by simp)
          · exact absurd c2 (by simp)
        · exact absurd c2 (by simp)
      obtain ⟨c1, c2, c3⟩ := r.conv hc
      refine ⟨hc, ?_⟩
      by_contra hlt
      have hlt : Module.finrank K V - 1 < (cg sys small err rec true (fun _ => false) nIter b x0).1.iters := by simpa using hlt
      have := r.notSmall k hk0 (by omega)
      rw [hsm] at this; exact absurd this (by simp)
  refine ⟨key.1, key.2, fun hsm => ?_⟩
  by_contra hne
  have h1 := hsm _ (tr.2 key.1)
  have h2 : residual sys (-b) o.state ≠ 0 := fun e => hne (by
    unfold residual at e
    rw [← neg_eq_zero, ← e]; abel)
  exact (h.precond_pos _ h2).ne' h1

/-- **C83 (giving up).** For every operator, the perturbation solver stops without convergence only at the iteration limit, when interrupted, or when the error has increased in the
last three iterations; no state before the last passed the test. -/
theorem C83_cg_stops (sys : Sys K V) (small : K → Bool) (err : K → K) (rec bypass : Bool) (kill : Nat → Bool) (nIter : Nat) (b x0 : V) :
    let o := (cg sys small err rec bypass kill nIter b x0).1
    (o.converged = true → o.iters = o.trace.length - 2) ∧
    (o.converged = false → (o.iters + 1 = o.trace.length ∧ (o.iters = nIter ∨ kill o.iters = true)) ∨
      (bypass = false ∧ o.iters + 2 = o.trace.length ∧ ∃ a b c d, o.trace.drop (o.trace.length - 4) = [a, b, c, d] ∧
        err (measure sys a) < err (measure sys b) ∧ err (measure sys b) < err (measure sys c) ∧ err (measure sys c) < err (measure sys d))) ∧
    ∀ k p, k + 1 < o.trace.length → o.trace[k]? = some p → small (measure sys p) = false := by
  obtain ⟨s, hst, hx, hr, c | c⟩ := cg_runs sys small err rec bypass kill nIter b x0
  · rw [c.2]
    exact ⟨fun _ => rfl, by simp, fun k p hk => by simp at hk⟩
  · obtain ⟨hns, r⟩ := c
    generalize cg sys small err rec bypass kill nIter b x0 = o at *
    have meas : ∀ k p, o.1.trace[k]? = some p → measure sys p = (it sys s k).rdotz := by
      intro k p hp
      rw [r.states k p hp, zero_add]
      unfold measure
      rw [(it_z s hst k).2, (it_z s hst k).1]
    refine ⟨fun hc => ?_, fun hc => ?_, fun k p hk hp => ?_⟩
    · have := (r.conv hc).2.2; omega
    · obtain ⟨c3, ⟨c1, c2⟩ | ⟨c1, c2, c4, c5, c6, c7⟩⟩ := r.unconv hc
      · left
        refine ⟨by omega, ?_⟩
        rcases c2 with c2 | c2
        · left; omega
        · exact Or.inr c2
      · right
        refine ⟨c2, by omega, ?_⟩
        have hl : 4 ≤ o.1.trace.length := by omega
        obtain ⟨m, hm⟩ : ∃ m, o.1.trace.length = m + 4 := ⟨o.1.trace.length - 4, by omega⟩
        have hit : o.1.iters = m + 2 := by omega
        refine ⟨o.1.trace[m]'(by omega), o.1.trace[m + 1]'(by omega), o.1.trace[m + 2]'(by omega), o.1.trace[m + 3]'(by omega), ?_, ?_⟩
        · rw [show o.1.trace.length - 4 = m by omega]
          refine List.ext_getElem (by simp [hm]) fun i h1 h2 => ?_
          simp at h2
          rw [List.getElem_drop]
          match i with
          | 0 => rfl
          | 1 => rfl
          | 2 => rfl
          | 3 => rfl
        · rw [meas m _ (List.getElem?_eq_getElem _), meas (m + 1) _ (List.getElem?_eq_getElem _), meas (m + 2) _ (List.getElem?_eq_getElem _), meas (m + 3) _ (List.getElem?_eq_getElem _)]
          rw [hit] at c5 c6 c7
          exact ⟨c7, c6, c5⟩
    · rw [meas k p hp]
      match k with
      | 0 => exact hns
      | k + 1 => have := r.notSmall (k + 1) (by omega) hk; rwa [zero_add] at this

/-- **C83 (state returned), partial.** When the perturbation solver stops without convergence and falls back to a stored state, that state is at least as good as every
state at which the residual measure began to increase; otherwise it returns the last state. Missing: the last state, which may be better than the stored one
(`C83_best_violation`). -/
theorem C83_best_partial (sys : Sys K V) (small : K → Bool) (err : K → K) (rec bypass : Bool) (kill : Nat → Bool) (nIter : Nat) (b x0 : V) :
    let o := cg sys small err rec bypass kill nIter b x0
    o.1.converged = false → (o.1.trace.getLast?.map Prod.fst = some o.1.state) ∨
      ∀ k p q, o.1.trace[k]? = some p → o.1.trace[k + 1]? = some q → err (measure sys p) < err (measure sys q) →
        (∀ p', 0 < k → o.1.trace[k - 1]? = some p' → err (measure sys p) ≤ err (measure sys p')) →
        measure sys (o.1.state, residual sys (-b) o.1.state) ≤ measure sys p := by
  have ok := C39_cg sys small err rec bypass kill nIter b x0
  obtain ⟨s, hst, hx, hr, c | c⟩ := cg_runs sys small err rec bypass kill nIter b x0
  · intro o hc
    have : o.1 = _ := c.2
    rw [this] at hc
    exact absurd hc (by simp)
  · obtain ⟨hns, r⟩ := c
    intro o hc
    rcases r.state hc with hs | hs
    · right
      intro k p q hp hq hpq hmin
      have meas : ∀ k p, o.1.trace[k]? = some p → measure sys p = (it sys s k).rdotz := by
        intro k p hp
        rw [r.states k p hp, zero_add]
        unfold measure
        rw [(it_z s hst k).2, (it_z s hst k).1]
      have h1 : measure sys (o.1.state, residual sys (-b) o.1.state) = o.2.optresidual := ok.2 hc hs
      have hq' := (List.getElem?_eq_some_iff.1 hq).1
      rw [h1, meas k p hp]
      refine r.minima hc k (by show k + 1 < 0 + o.1.trace.length; omega) ?_ ?_
      · unfold Inc
        rw [← meas k p hp, ← meas (k + 1) q hq]; exact hpq
      · by_cases hk : k = 0
        · exact Or.inl hk
        · right
          unfold Inc
          have hk' : k - 1 < o.1.trace.length := by omega
          have hl := hmin _ (by omega) (List.getElem?_eq_getElem hk')
          rw [meas k p hp, meas (k - 1) _ (List.getElem?_eq_getElem hk')] at hl
          rw [show k - 1 + 1 = k by omega]
          exact not_lt.2 hl
    · exact Or.inl hs

/-! ### Cases -/

/-- A diagonal operator in five dimensions. -/
def diagSys (a : Fin 5 → Rat) : Sys Rat (Fin 5 → Rat) where
  A := { toFun := fun x i => a i * x i, map_add' := fun x y => by funext i; simp [mul_add], map_smul' := fun c x => by funext i; simp; ring }
  precond := id
  dot := fun x y => x 0 * y 0 + x 1 * y 1 + x 2 * y 2 + x 3 * y 3 + x 4 * y 4

theorem diagSys_spd (a : Fin 5 → Rat) (ha : ∀ i, 0 < a i) : SPD (diagSys a) := by
  have pos : ∀ (c : Fin 5 → Rat), (∀ i, 0 < c i) → ∀ x : Fin 5 → Rat, x ≠ 0 →
      0 < c 0 * (x 0 * x 0) + c 1 * (x 1 * x 1) + c 2 * (x 2 * x 2) + c 3 * (x 3 * x 3) + c 4 * (x 4 * x 4) := by
    intro c hc x hx
    have nn : ∀ i, 0 ≤ c i * (x i * x i) := fun i => mul_nonneg (hc i).le (mul_self_nonneg _)
    obtain ⟨i, hi⟩ := Function.ne_iff.1 hx
    have hp : 0 < c i * (x i * x i) := mul_pos (hc i) (mul_self_pos.2 hi)
    have n0 := nn 0; have n1 := nn 1; have n2 := nn 2; have n3 := nn 3; have n4 := nn 4
    match i with
    | 0 => linarith
    | 1 => linarith
    | 2 => linarith
    | 3 => linarith
    | 4 => linarith
  refine ⟨fun x y z => ?_, fun c x y => ?_, fun x y => ?_, fun x y => ?_, fun x hx => ?_, fun x y => rfl, fun x hx => ?_⟩
  · simp only [diagSys, Pi.add_apply]; ring
  · simp only [diagSys, Pi.smul_apply, smul_eq_mul]; ring
  · simp only [diagSys]; ring
  · simp only [diagSys, LinearMap.coe_mk, AddHom.coe_mk]; ring
  · have := pos a ha x hx
    simp only [diagSys, LinearMap.coe_mk, AddHom.coe_mk]
    linarith
  · have := pos (fun _ => 1) (fun _ => one_pos) x hx
    simp only [diagSys, id]
    linarith

/-- Five iterations solve a system with five different eigenvalues; four do not. -/
example : let sys := diagSys ![10, 50, 20, 2, 3]
    (solve sys (fun x => decide (x = 0)) (fun _ => false) 5 ![10, 5, 3, 5, 1] 0).converged = true ∧
      (solve sys (fun x => decide (x = 0)) (fun _ => false) 4 ![10, 5, 3, 5, 1] 0).converged = false := by decide +kernel

example : SPD (diagSys ![10, 50, 20, 2, 3]) := diagSys_spd _ (by decide +kernel)

/-- **C83 is false for the code** as to the state returned: when the iteration limit is reached, the perturbation solver goes back to an earlier state after which the residual once increased, although
the last state has a residual measure 300 times smaller (LinearSolver.h:171-174). -/
theorem C83_best_violation : ∃ (sys : Sys Rat (Fin 5 → Rat)) (b : Fin 5 → Rat), SPD sys ∧
    let o := (cg sys (fun x => decide (x < 1 / 100)) id false false (fun _ => false) 4 b 0).1
    o.converged = false ∧ ∃ p ∈ o.trace, o.trace.getLast? = some p ∧
      300 * measure sys p < measure sys (o.state, residual sys (-b) o.state) := by
  refine ⟨diagSys ![10, 50, 20, 2, 3], ![-10, -5, -3, -5, -1], diagSys_spd _ (by decide +kernel), by decide +kernel, ?_⟩
  refine ⟨_, List.getLast_mem (by decide +kernel), List.getLast?_eq_getLast_of_ne_nil _, by decide +kernel⟩

end Jdftx.Lin
