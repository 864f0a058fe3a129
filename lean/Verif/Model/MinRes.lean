import Mathlib.Data.Real.Sqrt
import Mathlib.Algebra.Module.LinearMap.Defs

/-!
# Model of the MINRES solver of perturbation theory

`LinearSolvableIndefinite::MINRES` (jdftx/perturb/LinearSolver.h:183-247), in exact real arithmetic.  Divisions by zero, which fill a vector with
not-a-number in the code, are explicit: such a vector is `none`.  Logging is not modelled.
-/
noncomputable section
namespace Jdftx.MinRes

variable {V : Type} [AddCommGroup V] [Module ℝ V]

/-- LinearSolver.h:53-82: the operator `hessian`, the square root of the preconditioner `Ksqrt` and the inner product. -/
structure Sys (V : Type) [AddCommGroup V] [Module ℝ V] where
  A : V →ₗ[ℝ] V
  Ks : V →ₗ[ℝ] V
  dot : V → V → ℝ

/-- The local variables of the iteration, LinearSolver.h:185-191. `v` is `none` when its components are not numbers. -/
structure St (V : Type) where
  state : V
  v : Option V
  vold : V
  w : V
  wtt : V
  rho : ℝ
  beta : ℝ
  betatilde : ℝ
  c : ℝ
  s : ℝ

/-- LinearSolver.h:185-191. `vold` and `w` start as copies of the state. -/
def start (sys : Sys V) (b x0 : V) : St V :=
  let r := sys.Ks ((-1 : ℝ) • sys.A (sys.Ks x0) + (-1 : ℝ) • b)
  let rho := Real.sqrt (sys.dot r r)
  let v := (1 / rho) • r
  ⟨x0, if rho = 0 then none else some v, x0, x0, v, rho, 0, 0, -1, 0⟩

/-- LinearSolver.h:208-228: one iteration. `none`: the state is not a number afterwards. -/
def step (sys : Sys V) (st : St V) : Option (St V) :=
  match st.v with
  | none => none
  | some v =>
    let vhat0 := sys.Ks (sys.A (sys.Ks v)) + (-st.beta) • st.vold
    let alpha := sys.dot v vhat0
    let vhat := vhat0 + (-alpha) • v
    let beta := Real.sqrt (sys.dot vhat vhat)
    let v1 := (1 / beta) • vhat
    let l1 := st.s * alpha - st.c * st.betatilde
    let l2 := st.s * beta
    let alphatilde := -st.s * st.betatilde - st.c * alpha
    let betatilde := st.c * beta
    let l0 := Real.sqrt (alphatilde * alphatilde + beta * beta)
    let c := alphatilde / l0
    let s := beta / l0
    let wt := st.wtt + (-l1) • st.w
    let wtt := v1 + (-l2) • st.w
    let w := (1 / l0) • wt
    let state := st.state + (st.rho * c) • w
    if l0 = 0 then none
    else some ⟨state, if beta = 0 then none else some v1, v, w, wtt, s * st.rho, beta, betatilde, c, s⟩

/-- What the function leaves in `state`, its return value, whether it announced convergence, and the transformed state (before the
final application of `Ksqrt`) with the residual norm `rho` initially and after each iteration. -/
structure Out (V : Type) where
  state : Option V
  iters : Nat
  converged : Bool
  trace : List (V × ℝ)

/-- Once the state is not a number no comparison holds, and the loop runs to its limit (LinearSolver.h:206-243). -/
def spin (kill : Nat → Bool) : Nat → Nat → Nat
  | 0, iter => iter
  | n + 1, iter => if kill iter then iter else spin kill n (iter + 1)

/-- LinearSolver.h:206-246; `n` is `nIterations - iter`. `small` is the test of convergence of line 233, `stalled` the one of
line 235 (of the previous and the new residual), `kill` the kill flag at the loop test of each iteration. -/
def loop (sys : Sys V) (small : ℝ → Bool) (stalled : ℝ → ℝ → Bool) (kill : Nat → Bool) : Nat → Nat → Nat → St V → Out V
  | 0, iter, _, st => ⟨some (sys.Ks st.state), iter, false, [(st.state, st.rho)]⟩
  | n + 1, iter, consec, st =>
    if kill iter then ⟨some (sys.Ks st.state), iter, false, [(st.state, st.rho)]⟩
    else match step sys st with
      | none => ⟨none, spin kill n (iter + 1), false, [(st.state, st.rho)]⟩
      | some st1 =>
        if small st1.rho then ⟨some (sys.Ks st1.state), iter, true, [(st.state, st.rho), (st1.state, st1.rho)]⟩
        else
          let consec1 := if stalled st.rho st1.rho then consec + 1 else 0
          if 2 ≤ consec1 then ⟨some (sys.Ks st1.state), iter, false, [(st.state, st.rho), (st1.state, st1.rho)]⟩
          else
            let o := loop sys small stalled kill n (iter + 1) consec1 st1
            { o with trace := (st.state, st.rho) :: o.trace }

/-- LinearSolver.h:183-247 `MINRES`, with right-hand side `b`, from `x0`. -/
def minres (sys : Sys V) (small : ℝ → Bool) (stalled : ℝ → ℝ → Bool) (kill : Nat → Bool) (nIter : Nat) (b x0 : V) : Out V :=
  loop sys small stalled kill nIter 0 0 (start sys b x0)

end Jdftx.MinRes
