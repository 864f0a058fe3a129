import Verif.Model.LinSolve
import Mathlib.Algebra.Order.Ring.Rat
import Mathlib.Algebra.Field.Rat
import Mathlib.Algebra.Module.LinearMap.Basic
import Mathlib.Tactic.Module

/-!
# C39: the conjugate-gradient solvers keep the true residual
-/
namespace Jdftx.Lin

variable {K V : Type} [Field K] [DecidableEq K] [AddCommGroup V] [Module K V]

/-- The true residual of `A x = rhs`. -/
def residual (sys : Sys K V) (rhs x : V) : V := rhs - sys.A x

/-- What is known of the outcome: all residuals are true; convergence was announced only for a state whose true residual
passes the test. -/
def Truthful (sys : Sys K V) (small : K → Bool) (rhs : V) (o : Out V) : Prop :=
  (∀ p ∈ o.trace, p.2 = residual sys rhs p.1) ∧
  (o.converged = true → small (sys.dot (residual sys rhs o.state) (sys.precond (residual sys rhs o.state))) = true)

theorem solveStep_inv (sys : Sys K V) (rhs : V) (s : St K V) (h : s.r = residual sys rhs s.state) :
    (solveStep sys s).r = residual sys rhs (solveStep sys s).state := by
  unfold solveStep residual at *
  simp only [h, map_add, map_smul]
  module

theorem solveLoop_truthful (sys : Sys K V) (small : K → Bool) (kill : Nat → Bool) (rhs : V) (n : Nat) :
    ∀ iter s, s.r = residual sys rhs s.state → Truthful sys small rhs (solveLoop sys small kill n iter s) := by
  induction n with
  | zero =>
    intro iter s h
    refine ⟨?_, by intro hc; simp [solveLoop] at hc⟩
    intro p hp; simp [solveLoop] at hp; rw [hp]; exact h
  | succ n ih =>
    intro iter s h
    have h1 := solveStep_inv sys rhs s h
    unfold solveLoop
    simp only
    by_cases hk : kill iter = true
    · rw [if_pos hk]
      refine ⟨?_, by intro hc; simp at hc⟩
      intro p hp; simp at hp; rw [hp]; exact h
    rw [if_neg hk]
    by_cases hs : small (solveStep sys s).rdotz = true
    · rw [if_pos hs]
      refine ⟨?_, ?_⟩
      · intro p hp; simp at hp; rcases hp with hp | hp <;> rw [hp] <;> assumption
      · intro _
        have e : (solveStep sys s).rdotz = sys.dot (solveStep sys s).r (sys.precond (solveStep sys s).r) := rfl
        rw [← h1, ← e]; exact hs
    · rw [if_neg hs]
      obtain ⟨i1, i2⟩ := ih (iter+1) (solveStep sys s) h1
      refine ⟨?_, i2⟩
      intro p hp
      simp at hp
      rcases hp with hp | hp
      · rw [hp]; exact h
      · exact i1 p hp

/-- **C39 (`solve`).** For every linear operator, preconditioner, inner product, right-hand side, starting guess, iteration
limit and interruption: at the start and after every iteration the residual held equals right-hand side minus operator
applied to the state, and convergence is announced only if the true residual of the returned state passes the test. -/
theorem C39_solve (sys : Sys K V) (small : K → Bool) (kill : Nat → Bool) (nIter : Nat) (rhs x0 : V) :
    Truthful sys small rhs (solve sys small kill nIter rhs x0) := by
  have h0 : rhs + (-1 : K) • sys.A x0 = residual sys rhs x0 := by unfold residual; module
  unfold solve
  simp only [h0]
  split
  · rename_i hs
    refine ⟨?_, fun _ => hs⟩
    intro p hp; simp at hp; rw [hp]
  · exact solveLoop_truthful sys small kill rhs nIter 0 _ rfl

/-- The trace starts at the guess and ends at the state returned. -/
theorem C39_solve_trace (sys : Sys K V) (small : K → Bool) (kill : Nat → Bool) (nIter : Nat) (rhs x0 : V) :
    let o := solve sys small kill nIter rhs x0
    (o.trace.head?.map Prod.fst = some x0) ∧ (o.trace.getLast?.map Prod.fst = some o.state) ∧ o.trace.length ≤ nIter + 1 := by
  have key : ∀ n iter (s : St K V), let o := solveLoop sys small kill n iter s
      (o.trace.head?.map Prod.fst = some s.state) ∧ (o.trace.getLast?.map Prod.fst = some o.state) ∧ o.trace.length ≤ n + 1 := by
    intro n
    induction n with
    | zero => intro iter s; simp [solveLoop]
    | succ n ih =>
      intro iter s
      unfold solveLoop
      simp only
      split
      · simp
      · split
        · simp
        · obtain ⟨i1, i2, i3⟩ := ih (iter+1) (solveStep sys s)
          refine ⟨by simp, ?_, by simp; omega⟩
          generalize (solveLoop sys small kill n (iter+1) (solveStep sys s)) = o at *
          cases hc : o.trace with
          | nil => rw [hc] at i1; simp at i1
          | cons a t => rw [hc] at i2; simpa using i2
  unfold solve
  simp only
  split
  · simp
  · exact key _ _ _

/-- `2x = 4` from `x = 0`: converges in one iteration and reports 0 iterations (the count returned is one less than the
number of iterations done). -/
example : let sys : Sys Rat Rat := ⟨2 • LinearMap.id, id, fun a b => a * b⟩
    let o := solve sys (fun x => decide (x = 0)) (fun _ => false) 10 4 0
    o.state = 2 ∧ o.converged = true ∧ o.iters = 0 ∧ o.trace.length = 2 := by decide +kernel

/-! ## The solver of the perturbation module -/

section cg
variable [LinearOrder K]

omit [LinearOrder K] in
theorem cgStep_inv (sys : Sys K V) (rec : Bool) (b : V) (iter : Nat) (s : St K V) (h : s.r = residual sys (-b) s.state) :
    (cgStep sys rec b iter s).r = residual sys (-b) (cgStep sys rec b iter s).state := by
  unfold cgStep residual at *
  simp only [h, map_add, map_smul]
  split <;> module

/-- The state kept as best so far has the residual measure stored with it. -/
def BestOK (sys : Sys K V) (rhs : V) (best : Best K V) : Prop :=
  0 < best.optiter → sys.dot (residual sys rhs best.optstate) (sys.precond (residual sys rhs best.optstate)) = best.optresidual

theorem cgBest_ok (sys : Sys K V) (err : K → K) (rec : Bool) (b : V) (iter : Nat) (s : St K V) (best : Best K V)
    (h : s.r = residual sys (-b) s.state) (hz : s.rdotz = sys.dot s.r (sys.precond s.r)) (hb : BestOK sys (-b) best) :
    BestOK sys (-b) (cgBest sys err iter s (cgStep sys rec b iter s) best) := by
  unfold cgBest
  simp only
  split
  · split
    · intro _
      simp only
      have e : (cgStep sys rec b iter s).state + (-(s.rdotz / sys.dot (sys.A (cgStep sys rec b iter s).d) (cgStep sys rec b iter s).d)) • (cgStep sys rec b iter s).d
          = s.state := by
        unfold cgStep; simp only; module
      rw [e, ← h, ← hz]; rfl
    · exact hb
  · exact hb

/-- The state returned without convergence is the best one, with its true residual measure, or the last one. -/
def CgOK (sys : Sys K V) (small : K → Bool) (rhs : V) (o : Out V × Best K V) : Prop :=
  Truthful sys small rhs o.1 ∧ (o.1.converged = false → 0 < o.2.optiter →
    sys.dot (residual sys rhs o.1.state) (sys.precond (residual sys rhs o.1.state)) = o.2.optresidual)

theorem cgLoop_ok (sys : Sys K V) (small : K → Bool) (err : K → K) (rec bypass : Bool) (kill : Nat → Bool) (b : V) (n : Nat) :
    ∀ iter s best, s.r = residual sys (-b) s.state → s.rdotz = sys.dot s.r (sys.precond s.r) → BestOK sys (-b) best →
      CgOK sys small (-b) (cgLoop sys small err rec bypass kill b n iter s best) := by
  have fin : ∀ (iter : Nat) (st : V) (tr : List (V × V)) (best : Best K V), BestOK sys (-b) best → (∀ p ∈ tr, p.2 = residual sys (-b) p.1) →
      CgOK sys small (-b) (⟨if 0 < best.optiter then best.optstate else st, iter, false, tr⟩, best) := by
    intro iter st tr best hb ht
    refine ⟨⟨ht, by intro hc; simp at hc⟩, ?_⟩
    intro _ ho
    simp only at ho ⊢
    rw [if_pos ho]; exact hb ho
  induction n with
  | zero =>
    intro iter s best h hz hb
    exact fin _ _ _ _ hb (by intro p hp; simp at hp; rw [hp]; exact h)
  | succ n ih =>
    intro iter s best h hz hb
    have h1 := cgStep_inv sys rec b iter s h
    have hb1 := cgBest_ok sys err rec b iter s best h hz hb
    have ht : ∀ p ∈ [(s.state, s.r), ((cgStep sys rec b iter s).state, (cgStep sys rec b iter s).r)], p.2 = residual sys (-b) p.1 := by
      intro p hp; simp at hp; rcases hp with hp | hp <;> rw [hp] <;> assumption
    unfold cgLoop
    simp only
    by_cases hk : kill iter = true
    · rw [if_pos hk]; exact fin _ _ _ _ hb (by intro p hp; simp at hp; rw [hp]; exact h)
    rw [if_neg hk]
    by_cases hs : small (cgStep sys rec b iter s).rdotz = true
    · rw [if_pos hs]
      refine ⟨⟨ht, ?_⟩, by intro hc; simp at hc⟩
      intro _
      have e : (cgStep sys rec b iter s).rdotz = sys.dot (cgStep sys rec b iter s).r (sys.precond (cgStep sys rec b iter s).r) := rfl
      simp only
      rw [← h1, ← e]; exact hs
    rw [if_neg hs]
    split
    · exact fin _ _ _ _ hb1 ht
    · obtain ⟨⟨i1, i2⟩, i3⟩ := ih (iter+1) (cgStep sys rec b iter s) _ h1 rfl
        (show BestOK sys (-b) { cgBest sys err iter s (cgStep sys rec b iter s) best with errPrev := err (cgStep sys rec b iter s).rdotz } from hb1)
      refine ⟨⟨?_, i2⟩, i3⟩
      intro p hp
      simp at hp
      rcases hp with hp | hp
      · rw [hp]; exact h
      · exact i1 p hp

/-- **C39 (`CG` of the perturbation solver, for `A x + b = 0`).** As above, with the optional recomputation of residuals;
moreover, when the solver gives up and returns its best earlier state, the residual measure it recorded for that state is
the true one. -/
theorem C39_cg (sys : Sys K V) (small : K → Bool) (err : K → K) (rec bypass : Bool) (kill : Nat → Bool) (nIter : Nat) (b x0 : V) :
    CgOK sys small (-b) (cg sys small err rec bypass kill nIter b x0) := by
  have h0 : (-1 : K) • (sys.A x0 + (1 : K) • b) = residual sys (-b) x0 := by unfold residual; module
  unfold cg
  simp only [h0]
  split
  · rename_i hs
    refine ⟨⟨?_, fun _ => hs⟩, by intro hc; simp at hc⟩
    intro p hp; simp at hp; rw [hp]
  · exact cgLoop_ok sys small err rec bypass kill b nIter 0 _ _ rfl rfl (by intro h; simp at h)

example : let sys : Sys Rat Rat := ⟨2 • LinearMap.id, id, fun a b => a * b⟩
    let o := (cg sys (fun x => decide (x = 0)) id true false (fun _ => false) 10 4 0).1
    o.state = -2 ∧ o.converged = true ∧ o.trace.length = 2 := by decide +kernel

end cg

end Jdftx.Lin
