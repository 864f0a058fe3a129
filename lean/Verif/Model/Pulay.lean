import Verif.Model.Outcome
import Mathlib.Algebra.Module.Defs
import Mathlib.LinearAlgebra.Matrix.NonsingularInverse

/-!
# Model of Pulay mixing (jdftx/core/Pulay.h:117-285)

Exact arithmetic over a field; overlaps are real numbers in the code (stored in a complex matrix).  Convergence tests
(C38), logging and files are not modelled: the answers of the tests are part of the input.
-/
namespace Jdftx.Pulay

variable {K V : Type} [Field K] [AddCommGroup V] [Module K V]

/-- Pulay.h:40-72: the virtual functions used by the mixing. -/
structure Env (K V : Type) where
  history : Nat
  dot : V → V → K
  metric : V → V
  precond : V → V

/-- Pulay.h:79-81: stored variables and residuals (oldest first), and the overlap matrix.  Entries of the matrix that were
never set hold whatever the memory held before (Pulay.h:113 constructs it without initialisation). -/
structure PState (K V : Type) where
  vars : List V
  ress : List V
  ov : Nat → Nat → K

/-- Pulay.h:134-139: removal of the oldest entry when the history is full; erasing from an empty vector (`history = 0`) is
undefined behaviour. -/
def makeRoom (env : Env K V) (s : PState K V) : Res (PState K V) :=
  if env.history ≤ s.ress.length then
    let ndim := s.ress.length
    let ov := if 1 < ndim then (fun i j => if i < ndim - 1 ∧ j < ndim - 1 then s.ov (i+1) (j+1) else s.ov i j) else s.ov
    match s.vars, s.ress with
    | _ :: vs, _ :: rs => .ok ⟨vs, rs, ov⟩
    | _, _ => .error .ub
  else .ok s

/-- Pulay.h:198-204: the new row and column of the overlap matrix, set for `j = 0 .. ndim-1` in turn. -/
def updateOverlap (env : Env K V) (s : PState K V) : PState K V :=
  match s.ress.getLast? with
  | none => s
  | some last =>
    let ndim := s.ress.length
    let M := env.metric last
    { s with ov := fun i j =>
        if i = ndim - 1 ∧ j < ndim then env.dot (s.ress.getD j 0) M
        else if j = ndim - 1 ∧ i < ndim then env.dot (s.ress.getD i 0) M
        else s.ov i j }

/-- Pulay.h:207-213: the overlap matrix bordered with ones. -/
def bordered (s : PState K V) : Matrix (Fin (s.ress.length + 1)) (Fin (s.ress.length + 1)) K := Matrix.of fun i j =>
  if i.val < s.ress.length then (if j.val < s.ress.length then s.ov i j else 1)
  else (if j.val < s.ress.length then 1 else 0)

/-- Pulay.h:214-217: the mixing coefficients from the last column of the inverse. -/
noncomputable def coeffs (s : PState K V) : Fin s.ress.length → K :=
  fun j => (bordered s)⁻¹ j.castSucc (Fin.last _)

/-- Pulay.h:220-224: the next variable from given coefficients. -/
def mixed (env : Env K V) (s : PState K V) (alpha : Fin s.ress.length → K) : V :=
  ((List.finRange s.ress.length).map (fun j => alpha j • s.vars.getD j 0 + alpha j • env.precond (s.ress.getD j 0))).sum

/-- One pass of the loop body up to the residual, Pulay.h:132-156: `cur` is the variable before the cycle, `new` after. -/
def cycle (env : Env K V) (s : PState K V) (cur new : V) : Res (PState K V) :=
  match makeRoom env s with
  | .error e => .error e
  | .ok s1 => .ok { s1 with vars := s1.vars ++ [cur], ress := s1.ress ++ [new + (-1 : K) • cur] }

/-- The SCF cycle as seen by the mixer: result of the cycle for the current variable, and whether the loop stops after it
(converged, interrupted, or NaN energy; Pulay.h:172-193). -/
structure Event (V : Type) where
  new : V → V
  stop : Bool

/-- Pulay.h:130-226, one `minimize` call driven by a list of events (at most `nIterations` of them): final mixer state and
the mixer states at which coefficients were computed. -/
noncomputable def minimize (env : Env K V) : List (Event V) → PState K V → V → Res (PState K V × List (PState K V))
  | [], s, _ => .ok (s, [])
  | e :: es, s, cur =>
    match cycle env s cur (e.new cur) with
    | .error err => .error err
    | .ok s1 =>
      if e.stop then .ok (s1, [])
      else
        let s2 := updateOverlap env s1
        match minimize env es s2 (mixed env s2 (coeffs s2)) with
        | .error err => .error err
        | .ok r => .ok (r.1, s2 :: r.2)

/-- Pulay.h:236-268 `loadState` of a file with the given pairs: the last `history` of them are kept, and all overlaps are
computed. -/
def loadState (env : Env K V) (pairs : List (V × V)) (s : PState K V) : PState K V :=
  let kept := pairs.drop (pairs.length - env.history)
  let rs := kept.map Prod.snd
  { vars := kept.map Prod.fst, ress := rs,
    ov := fun i j =>
      if i < rs.length ∧ j < rs.length then
        (if j ≤ i then env.dot (rs.getD j 0) (env.metric (rs.getD i 0)) else env.dot (rs.getD i 0) (env.metric (rs.getD j 0)))
      else s.ov i j }

/-- Pulay.h:282-285 `clearState`. -/
def clearState (s : PState K V) : PState K V := { s with vars := [], ress := [] }

end Jdftx.Pulay
