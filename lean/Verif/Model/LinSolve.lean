import Mathlib.Algebra.Field.Defs
import Mathlib.Algebra.Module.LinearMap.Defs

/-!
# Model of the conjugate-gradient linear solvers

`LinearSolvable::solve` (jdftx/core/Minimize.h:320-357) and `LinearSolvableIndefinite::CG`
(jdftx/perturb/LinearSolver.h:98-179).  Exact arithmetic; a zero denominator gives step size 0 here (NaN in the code).
`small (r·z)` stands for the convergence test, `sqrt(|r·z|/nDim) < knormThreshold` or `sqrt(|r·z|/|b·Kb|) < residualTol`.
Logging is not modelled.  `kill iter` is the kill flag as seen by the loop test of that iteration.
-/
namespace Jdftx.Lin

variable {K V : Type} [Field K] [DecidableEq K] [AddCommGroup V] [Module K V]

/-- The system: operator, preconditioner (any function), inner product. -/
structure Sys (K V : Type) [Field K] [AddCommGroup V] [Module K V] where
  A : V →ₗ[K] V
  precond : V → V
  dot : V → V → K

/-- The local variables of the iteration. -/
structure St (K V : Type) where
  state : V
  r : V
  z : V
  d : V
  rdotzPrev : K
  rdotz : K

/-- The outcome: final state, return value, whether convergence was announced, and the pairs (state, residual) at the end of
each iteration (and initially). -/
structure Out (V : Type) where
  state : V
  iters : Nat
  converged : Bool
  trace : List (V × V)

/-- Minimize.h:335-339 (LinearSolver.h:127-131): the search direction. -/
def direction (s : St K V) : V := if s.rdotzPrev ≠ 0 then (s.rdotz / s.rdotzPrev) • s.d + (1 : K) • s.z else s.z

/-- Minimize.h:334-347: one iteration. -/
def solveStep (sys : Sys K V) (s : St K V) : St K V :=
  let d := direction s
  let w := sys.A d
  let alpha := s.rdotz / sys.dot w d
  let state := s.state + alpha • d
  let r := s.r + (-alpha) • w
  let z := sys.precond r
  ⟨state, r, z, d, s.rdotz, sys.dot r z⟩

/-- Minimize.h:333-356; `n` is `nIterations - iter`. -/
def solveLoop (sys : Sys K V) (small : K → Bool) (kill : Nat → Bool) : Nat → Nat → St K V → Out V
  | 0, iter, s => ⟨s.state, iter, false, [(s.state, s.r)]⟩
  | n+1, iter, s =>
    if kill iter then ⟨s.state, iter, false, [(s.state, s.r)]⟩
    else
      let s1 := solveStep sys s
      if small s1.rdotz then ⟨s1.state, iter, true, [(s.state, s.r), (s1.state, s1.r)]⟩
      else
        let o := solveLoop sys small kill n (iter+1) s1
        { o with trace := (s.state, s.r) :: o.trace }

/-- Minimize.h:320-357 `LinearSolvable::solve`, from starting guess `x0`. -/
def solve (sys : Sys K V) (small : K → Bool) (kill : Nat → Bool) (nIter : Nat) (rhs x0 : V) : Out V :=
  let r := rhs + (-1 : K) • sys.A x0
  let z := sys.precond r
  let rdotz := sys.dot r z
  if small rdotz then ⟨x0, 0, true, [(x0, r)]⟩
  else solveLoop sys small kill nIter 0 ⟨x0, r, z, r, 0, rdotz⟩

/-! ## LinearSolvableIndefinite::CG -/

/-- The bookkeeping of the best state, LinearSolver.h:107-108, 119. `err` orders the relative errors (a monotone function
of `|r·z|`). -/
structure Best (K V : Type) where
  optstate : V
  optresidual : K
  optiter : Int
  consec : Nat
  errPrev : K

/-- LinearSolver.h:126-146: one iteration, with the optional recomputation of the residual every tenth iteration. -/
def cgStep (sys : Sys K V) (recompute : Bool) (b : V) (iter : Nat) (s : St K V) : St K V :=
  let d := direction s
  let w := sys.A d
  let alpha := s.rdotz / sys.dot w d
  let state := s.state + alpha • d
  let r := if 1 < iter ∧ iter % 10 = 0 ∧ recompute = true then (-1 : K) • (sys.A state + (1 : K) • b)
    else s.r + (-alpha) • w
  let z := sys.precond r
  ⟨state, r, z, d, s.rdotz, sys.dot r z⟩

/-- LinearSolver.h:157-168: bookkeeping after an iteration which did not converge. `s` before, `s1` after. -/
def cgBest [LinearOrder K] (sys : Sys K V) (err : K → K) (iter : Nat) (s s1 : St K V) (best : Best K V) : Best K V :=
  if best.errPrev < err s1.rdotz then
    let b1 := if best.consec = 0 ∧ s1.rdotzPrev < best.optresidual then
        let alpha := s.rdotz / sys.dot (sys.A s1.d) s1.d
        { best with optstate := s1.state + (-alpha) • s1.d, optiter := (iter : Int) - 1, optresidual := s1.rdotzPrev }
      else best
    { b1 with consec := best.consec + 1 }
  else { best with consec := 0 }

/-- LinearSolver.h:125-178. -/
def cgLoop [LinearOrder K] (sys : Sys K V) (small : K → Bool) (err : K → K) (recompute bypass : Bool) (kill : Nat → Bool) (b : V) :
    Nat → Nat → St K V → Best K V → Out V × Best K V
  | 0, iter, s, best => (⟨if 0 < best.optiter then best.optstate else s.state, iter, false, [(s.state, s.r)]⟩, best)
  | n+1, iter, s, best =>
    if kill iter then (⟨if 0 < best.optiter then best.optstate else s.state, iter, false, [(s.state, s.r)]⟩, best)
    else
      let s1 := cgStep sys recompute b iter s
      if small s1.rdotz then (⟨s1.state, iter, true, [(s.state, s.r), (s1.state, s1.r)]⟩, best)
      else
        let best1 := cgBest sys err iter s s1 best
        if 3 ≤ best1.consec ∧ bypass = false then
          (⟨if 0 < best1.optiter then best1.optstate else s1.state, iter, false, [(s.state, s.r), (s1.state, s1.r)]⟩, best1)
        else
          let o := cgLoop sys small err recompute bypass kill b n (iter+1) s1 { best1 with errPrev := err s1.rdotz }
          ({ o.1 with trace := (s.state, s.r) :: o.1.trace }, o.2)

/-- LinearSolver.h:98-179 `LinearSolvableIndefinite::CG`, solving `A x + b = 0` from `x0`. -/
def cg [LinearOrder K] (sys : Sys K V) (small : K → Bool) (err : K → K) (recompute bypass : Bool) (kill : Nat → Bool) (nIter : Nat) (b x0 : V) :
    Out V × Best K V :=
  let r := (-1 : K) • (sys.A x0 + (1 : K) • b)
  let z := sys.precond r
  let rdotz := sys.dot r z
  let best : Best K V := ⟨0, rdotz, 0, 0, err rdotz⟩
  if small rdotz then (⟨x0, 0, true, [(x0, r)]⟩, best)
  else cgLoop sys small err recompute bypass kill b nIter 0 ⟨x0, r, z, 0, 0, rdotz⟩ best

end Jdftx.Lin
