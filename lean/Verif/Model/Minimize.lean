import Verif.Model.Outcome
import Verif.Model.Converge
import Mathlib.Algebra.Field.Defs
import Mathlib.Algebra.Module.Defs
import Mathlib.Algebra.Order.Ring.Defs

/-!
# Model of the nonlinear minimiser (jdftx/core/Minimize.h, Minimize_linmin.h, Minimize_lBFGS.h)

Scalars are elements of an ordered field: exact arithmetic, no overflow.  Only energies can be non-finite
(`none` stands for NaN and both infinities, which the code treats alike through `isfinite`).  Log output is not modelled;
`sync` is the identity (one process; several processes are the subject of C05/C07).
-/
namespace Jdftx.Min

variable {K X V : Type}

/-- Minimize.h:47-66 `Minimizable<Vector>`: the objective function.  `compute(&g,&Kg)` is the triple
`energy`, `grad`, `kgrad` at the current state `x`; `report iter x = some x'` models a report which modified the state. -/
structure Obj (K X V : Type) where
  step : X → V → K → X
  energy : X → Option K
  grad : X → V
  kgrad : X → V
  dot : V → V → K
  constrain : V → V
  safeStep : V → K
  report : Nat → X → Option X

/-- MinimizeParams.h:48-74, the fields used. `nIterations` and `nAlphaAdjustMax` are natural numbers (negative values are
not modelled).
`normConv gKNorm Kg` is the test `fabs(knormValue) < knormThreshold` of Minimize.h:165,198 in either variant. -/
structure Params (K V : Type) where
  nIterations : Nat
  history : Nat
  normConv : K → V → Bool
  energyDiffThreshold : K
  nEnergyDiff : Nat
  convergeAll : Bool
  alphaTstart : K
  alphaTmin : K
  updateTestStepSize : Bool
  alphaTreduceFactor : K
  alphaTincreaseFactor : K
  nAlphaAdjustMax : Nat
  wolfeEnergy : K
  wolfeGradient : K
  abortOnFailedStep : Bool
  sqrt : K → K

/-- What a line minimisation leaves behind: return value, state, step size, energy, gradients. -/
structure LRes (K X V : Type) where
  ok : Bool
  x : X
  alpha : K
  E : Option K
  g : V
  Kg : V

section
variable [Field K] [LinearOrder K]

/-- Minimize_linmin.h:37-49 `linminRelax`. -/
def linminRelax (o : Obj K X V) (_p : Params K V) (x : X) (d : V) (alphaT _alpha : K) (_E : K) (_g _Kg : V) : LRes K X V :=
  let x1 := o.step x d alphaT
  ⟨(o.energy x1).isSome, x1, alphaT, o.energy x1, o.grad x1, o.kgrad x1⟩

/-- How the test-step loop of `linminQuad` ends. -/
inductive Test (K X : Type) where
  | quit (x : X) (alpha : K)                   -- line 69-73
  | accept (x : X) (alpha : K)                 -- line 87-94
  | go (x : X) (alphaPrev alpha : K)           -- line 108 or loop exhausted

/-- Minimize_linmin.h:85, the predicted step size; `none` if the denominator vanishes (the C++ value is then -infinity,
since the numerator is negative). -/
def predict (alphaT gdotd E ET : K) : Option K :=
  if alphaT * gdotd + E - ET = 0 then none else some (1/2 * (alphaT * alphaT) * gdotd / (alphaT * gdotd + E - ET))

/-- Minimize_linmin.h:68-109, the loop over test steps; `n` remaining attempts. -/
def quadTest (o : Obj K X V) (p : Params K V) (d : V) (gdotd E : K) : Nat → X → K → K → K → Test K X
  | 0, x, alphaPrev, _, alpha => .go x alphaPrev alpha
  | n+1, x, alphaPrev, alphaT, alpha =>
    if alphaT < p.alphaTmin then .quit x alphaPrev
    else
      let x1 := o.step x d (alphaT - alphaPrev)
      match o.energy x1 with
      | none => quadTest o p d gdotd E n x1 alphaT (alphaT * p.alphaTreduceFactor) alpha
      | some ET =>
        match predict alphaT gdotd E ET with
        | none => .accept x1 (-1)   -- alpha = -infinity: only its sign matters to the callers
        | some alpha1 =>
          if alpha1 < 0 then .accept x1 alpha1
          else if p.alphaTincreaseFactor < alpha1 / alphaT then
            quadTest o p d gdotd E n x1 alphaT (alphaT * p.alphaTincreaseFactor) alpha1
          else if alphaT / alpha1 < p.alphaTreduceFactor then
            quadTest o p d gdotd E n x1 alphaT (alphaT * p.alphaTreduceFactor) alpha1
          else .go x1 alphaT alpha1

/-- Minimize_linmin.h:117-135, the loop over actual steps. -/
def quadActual (o : Obj K X V) (p : Params K V) (d : V) (Eorig : K) : Nat → X → K → K → Option K → V → V → LRes K X V
  | 0, x, _, alpha, E, g, Kg => ⟨true, x, alpha, E, g, Kg⟩
  | n+1, x, alphaPrev, alpha, _, _, _ =>
    let x1 := o.step x d (alpha - alphaPrev)
    match o.energy x1 with
    | none => quadActual o p d Eorig n x1 alpha (alpha * p.alphaTreduceFactor) none (o.grad x1) (o.kgrad x1)
    | some E1 =>
      if Eorig < E1 then quadActual o p d Eorig n x1 alpha (alpha * p.alphaTreduceFactor) (some E1) (o.grad x1) (o.kgrad x1)
      else ⟨true, x1, alpha, some E1, o.grad x1, o.kgrad x1⟩

/-- Minimize_linmin.h:53-142 `linminQuad`.  The test at line 110 examines `E`, which is the (finite) starting energy, so
it never fires. -/
def linminQuad (o : Obj K X V) (p : Params K V) (x : X) (d : V) (alphaT alpha : K) (E : K) (g Kg : V) : LRes K X V :=
  let gdotd := o.dot g d
  if 0 ≤ gdotd then ⟨false, x, 0, some E, g, Kg⟩
  else
    match quadTest o p d gdotd E p.nAlphaAdjustMax x 0 alphaT alpha with
    | .quit x1 alpha1 => ⟨false, x1, alpha1, some E, g, Kg⟩
    | .accept x1 alpha1 => ⟨true, x1, alpha1, o.energy x1, o.grad x1, o.kgrad x1⟩
    | .go x1 alphaPrev alpha1 =>
      let r := quadActual o p d E p.nAlphaAdjustMax x1 alphaPrev alpha1 (some E) g Kg
      { r with ok := match r.E with
                     | none => false
                     | some E1 => !decide (E < E1) }

/-- Minimize_linmin.h:178-203, the next step size from the cubic through the end points. -/
def cubicNew (p : Params K V) (alphaPrev alpha Eprev E gdotdPrev gdotd : K) : K :=
  let Ep0 := gdotdPrev * (alpha - alphaPrev)
  let Ep1 := gdotd * (alpha - alphaPrev)
  let deltaE := E - Eprev
  let A := 3 * (Ep0 + Ep1 - 2 * deltaE)
  let B := 2 * Ep0 + Ep1 - 3 * deltaE
  let C := Ep0
  let tMin : Option K :=
    if 0 ≤ B * B - A * C then
      let disc := p.sqrt (B * B - A * C)
      let num := if 0 < B then B + disc else C
      let den := if 0 < B then A else B - disc
      if den = 0 then none
      else
        let tOpt := num / den
        let Eopt := Eprev + tOpt * (C + tOpt * (-B + tOpt * A / 3))
        if Eopt ≤ E ∧ Eopt ≤ Eprev then some tOpt else none
    else none
  let t := match tMin with
    | some t => max (min t p.alphaTincreaseFactor) (1 - p.alphaTincreaseFactor)
    | none => if Ep1 ≤ 0 then p.alphaTincreaseFactor else 1 - p.alphaTincreaseFactor
  alphaPrev + t * (alpha - alphaPrev)

/-- Minimize_linmin.h:162-217, the loop; `n` is `nAlphaAdjustMax + 1 - s`. -/
def cubicLoop (o : Obj K X V) (p : Params K V) (d : V) (E0 gdotd0 : K) : Nat → X → K → K → K → K → K → LRes K X V
  | n, x, alpha, alphaPrev, alphaState, Eprev, gdotdPrev =>
    let x1 := o.step x d (alpha - alphaState)
    let gdotd := o.dot (o.grad x1) d
    match n with
    | 0 =>
      ⟨match o.energy x1 with
        | none => false
        | some E => !decide (E0 < E), x1, alpha, o.energy x1, o.grad x1, o.kgrad x1⟩
    | n+1 =>
      match o.energy x1 with
      | none => cubicLoop o p d E0 gdotd0 n x1 (alphaPrev + p.alphaTreduceFactor * (alpha - alphaPrev)) alphaPrev alpha Eprev gdotdPrev
      | some E =>
        let alphaNew := cubicNew p alphaPrev alpha Eprev E gdotdPrev gdotd
        if E ≤ E0 + p.wolfeEnergy * alpha * gdotd0 ∧ p.wolfeGradient * gdotd0 ≤ gdotd then
          ⟨true, x1, alpha, some E, o.grad x1, o.kgrad x1⟩
        else if E < Eprev then cubicLoop o p d E0 gdotd0 n x1 alphaNew alpha alpha E gdotd
        else cubicLoop o p d E0 gdotd0 n x1 alphaNew alphaPrev alpha Eprev gdotdPrev

/-- Minimize_linmin.h:146-218 `linminCubicWolfe`. -/
def linminCubicWolfe (o : Obj K X V) (p : Params K V) (x : X) (d : V) (alphaT _alpha : K) (E : K) (g Kg : V) : LRes K X V :=
  let gdotd := o.dot g d
  if 0 ≤ gdotd then ⟨false, x, 0, some E, g, Kg⟩
  else cubicLoop o p d E gdotd (p.nAlphaAdjustMax + 1) x alphaT 0 0 E gdotd

/-- The type of line minimisers, Minimize.h:76. -/
abbrev Linmin (K X V : Type) := Obj K X V → Params K V → X → V → K → K → K → V → V → LRes K X V

/-- MinimizeParams.h:32-46. -/
inductive Scheme where
  | polakRibiere | fletcherReeves | hestenesStiefel | lbfgs | steepestDescent
deriving DecidableEq

inductive LinminMethod where
  | dirUpdateRecommended | relax | quad | cubicWolfe
deriving DecidableEq

/-- Minimize.h:302-317 `getLinmin`. -/
def getLinmin (m : LinminMethod) (s : Scheme) : Linmin K X V :=
  match m with
  | .dirUpdateRecommended =>
    match s with
    | .steepestDescent => linminRelax
    | .lbfgs => linminCubicWolfe
    | _ => linminQuad
  | .relax => linminRelax
  | .quad => linminQuad
  | .cubicWolfe => linminCubicWolfe

/-- Minimize.h:182-192, the mixing factor with the negative values reset.  A zero denominator gives 0 here (NaN or an
infinity in the code). -/
def betaOf (s : Scheme) (gKNorm gKNormPrev dotgPrevKg dotgd dotdgPrev : K) : K :=
  let b := match s with
    | .fletcherReeves => gKNorm / gKNormPrev
    | .polakRibiere => (gKNorm - dotgPrevKg) / gKNormPrev
    | .hestenesStiefel => (gKNorm - dotgPrevKg) / (dotgd - dotdgPrev)
    | _ => 0
  if b < 0 then 0 else b

/-- Minimize.h:196-209: number of satisfied criteria against the number required. -/
def isConverged (p : Params K V) (normOk ediffOk : Bool) : Bool :=
  decide ((if p.convergeAll then 2 else 1) ≤ normOk.toNat + ediffOk.toNat)

/-- The local variables of `minimize`. -/
structure MState (K X V : Type) where
  x : X
  E : Option K
  g : V
  Kg : V
  gPrev : V
  d : V
  alphaT : K
  alpha : K
  gKNormPrev : K
  force : Bool
  hist : List K

end

section
variable [Field K] [LinearOrder K] [AddCommGroup V] [Module K V]

/-- Minimize.h:157-162: report and re-evaluation. -/
def reported (o : Obj K X V) (iter : Nat) (s : MState K X V) : MState K X V :=
  match o.report iter s.x with
  | none => s
  | some x1 => { s with x := x1, E := o.energy x1, g := o.grad x1, Kg := o.kgrad x1, force := true }

/-- Minimize.h:121-264 `minimize` from the loop at line 155 on; `n` is `nIterations - iter`.  `kill iter` tells whether the
kill signal is seen at the loop test of that iteration. -/
def minLoop (o : Obj K X V) (p : Params K V) (sch : Scheme) (lm : Linmin K X V) (kill : Nat → Bool) :
    Nat → Nat → MState K X V → Res (X × Option K)
  | n, iter, s0 =>
    if kill iter then .ok (s0.x, s0.E)
    else
      let s := reported o iter s0
      let gKNorm := o.dot s.g s.Kg
      let beta := if s.force then 0
        else betaOf sch gKNorm s.gKNormPrev (o.dot s.gPrev s.Kg) (o.dot s.g s.d) (o.dot s.d s.gPrev)
      match s.E with
      | none => .ok (s.x, none)       -- lines 217-220 (reached whatever the criteria say: each returns E)
      | some E =>
        let e := Conv.ediffStep p.nEnergyDiff |p.energyDiffThreshold| s.hist E
        if isConverged p (p.normConv gKNorm s.Kg) e.2 then .ok (s.x, some E)
        else
          match n with
          | 0 => .ok (s.x, some E)
          | n+1 =>
            let d := o.constrain (beta • s.d + (-1 : K) • s.Kg)
            let alphaT := min s.alphaT (o.safeStep d)
            let r := lm o p s.x d alphaT s.alpha E s.g s.Kg
            if r.ok then
              let alphaT1 := if p.updateTestStepSize then (if r.alpha < p.alphaTmin then p.alphaTstart else r.alpha) else alphaT
              minLoop o p sch lm kill n (iter+1)
                ⟨r.x, r.E, r.g, r.Kg, s.g, d, alphaT1, r.alpha, gKNorm, false, e.1⟩
            else if p.abortOnFailedStep then .error .die
            else
              let x1 := o.step r.x d (-r.alpha)
              if beta ≠ 0 then
                minLoop o p sch lm kill n (iter+1)
                  ⟨x1, o.energy x1, o.grad x1, o.kgrad x1, s.g, d, alphaT, r.alpha, gKNorm, true, e.1⟩
              else .ok (x1, o.energy x1)

/-- Minimize.h:121-153 `minimize` (for the schemes other than L-BFGS), without the optional derivative test. -/
def minimize (o : Obj K X V) (p : Params K V) (sch : Scheme) (lm : Linmin K X V) (kill : Nat → Bool) (x : X) : Res (X × Option K) :=
  minLoop o p sch lm kill p.nIterations 0
    ⟨x, o.energy x, o.grad x, o.kgrad x, o.grad x, o.constrain (o.kgrad x), p.alphaTstart, p.alphaTstart, 0, true, []⟩

/-- Minimize_lBFGS.h:43-47. -/
structure HistEntry (K V : Type) where
  s : V
  Ky : V
  rho : K

/-- Minimize_lBFGS.h:109-113, newest entry first; returns the coefficients (last pushed first) and the direction. -/
def lbfgsDown (o : Obj K X V) : List (HistEntry K V) → List K → V → List K × V
  | [], a, d => (a, d)
  | h :: hs, a, d =>
    let c := h.rho * o.dot h.s d
    lbfgsDown o hs (c :: a) (d + (-c) • h.Ky)

/-- Minimize_lBFGS.h:115-119, oldest entry first. -/
def lbfgsUp (o : Obj K X V) : List (HistEntry K V) → List K → V → V
  | [], _, d => d
  | h :: hs, a, d =>
    let b := h.rho * o.dot h.Ky d
    lbfgsUp o hs a.tail (d + (a.headD 0 - b) • h.s)

/-- Minimize_lBFGS.h:107-120, the search direction. -/
def lbfgsDir (o : Obj K X V) (hist : List (HistEntry K V)) (gamma : K) (Kg : V) : V :=
  let ad := lbfgsDown o hist.reverse [] Kg
  let d := if gamma ≠ 0 then gamma • ad.2 else ad.2
  (-1 : K) • lbfgsUp o hist ad.1 d

/-- The local variables of `lBFGS`. -/
structure LState (K X V : Type) where
  x : X
  E : Option K
  g : V
  Kg : V
  alpha : K
  gamma : K
  hist : List (HistEntry K V)
  ehist : List K

/-- Minimize_lBFGS.h:58-63. -/
def lreported (o : Obj K X V) (iter : Nat) (s : LState K X V) : LState K X V :=
  match o.report iter s.x with
  | none => s
  | some x1 => { s with x := x1, E := o.energy x1, g := o.grad x1, Kg := o.kgrad x1, hist := [] }

/-- Minimize_lBFGS.h:121: `pop_front` when full; popping an empty list is undefined behaviour. -/
def makeRoom (history : Nat) (hist : List (HistEntry K V)) : Res (List (HistEntry K V)) :=
  if hist.length = history then (match hist with | [] => .error .ub | _ :: t => .ok t) else .ok hist

/-- Minimize_lBFGS.h:56-162, the loop; `n` is `nIterations - iter`.  Zero denominators in lines 157-158 give 0 here. -/
def lbfgsLoop (o : Obj K X V) (p : Params K V) (lm : Linmin K X V) (kill : Nat → Bool) :
    Nat → Nat → LState K X V → Res (X × Option K)
  | n, iter, s0 =>
    if kill iter then .ok (s0.x, s0.E)
    else
      let s := lreported o iter s0
      match s.E with
      | none => .ok (s.x, none)
      | some E =>
        let e := Conv.ediffStep p.nEnergyDiff |p.energyDiffThreshold| s.ehist E
        if isConverged p (p.normConv (o.dot s.g s.Kg) s.Kg) e.2 then .ok (s.x, some E)
        else
          match n with
          | 0 => .ok (s.x, some E)
          | n+1 =>
            match makeRoom p.history s.hist with
            | .error err => .error err
            | .ok hist =>
              let d := o.constrain (lbfgsDir o s.hist s.gamma s.Kg)
              let r := lm o p s.x d (min p.alphaTstart (o.safeStep d)) s.alpha E s.g s.Kg
              if r.ok then
                let sv := r.alpha • d
                let Ky := (-1 : K) • s.Kg + (1 : K) • r.Kg
                let y := (-1 : K) • s.g + (1 : K) • r.g
                let ydots := o.dot y sv
                lbfgsLoop o p lm kill n (iter+1)
                  ⟨r.x, r.E, r.g, r.Kg, r.alpha, ydots / o.dot y Ky, hist ++ [⟨sv, Ky, 1 / ydots⟩], e.1⟩
              else if p.abortOnFailedStep then .error .die
              else
                let x1 := o.step r.x d (-r.alpha)
                if hist ≠ [] then
                  lbfgsLoop o p lm kill n (iter+1) ⟨x1, o.energy x1, o.grad x1, o.kgrad x1, r.alpha, 0, [], e.1⟩
                else .ok (x1, o.energy x1)

/-- Minimize_lBFGS.h:31-56 `lBFGS`. -/
def lbfgs (o : Obj K X V) (p : Params K V) (lm : Linmin K X V) (kill : Nat → Bool) (x : X) : Res (X × Option K) :=
  lbfgsLoop o p lm kill p.nIterations 0 ⟨x, o.energy x, o.grad x, o.kgrad x, 0, 0, [], []⟩

/-- Minimize.h:289-296: the steps of the derivative test through a list of displacements; returns the state and
`deltaPrev`. -/
def fdLoop (o : Obj K X V) (dx : V) : List K → X → K → X × K
  | [], x, deltaPrev => (x, deltaPrev)
  | delta :: ds, x, deltaPrev => fdLoop o dx ds (o.step x dx (delta - deltaPrev)) delta

/-- Minimize.h:288-298 `fdTest`: effect on the state. -/
def fdTest (o : Obj K X V) (dx : V) (deltas : List K) (x : X) : X :=
  let r := fdLoop o dx deltas x 0
  o.step r.1 dx (-r.2)

/-- Minimize.h:269-271, 289: the displacements visited with the constants of the code (exact arithmetic). -/
def fdDeltas : List K := (List.range 11).map (fun i => 10 ^ i / 10 ^ 9)

end

end Jdftx.Min
