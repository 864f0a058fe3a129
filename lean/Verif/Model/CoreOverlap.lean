import Verif.Model.Mat3
import Verif.Model.Outcome
import Mathlib.Algebra.Order.Floor.Defs
import Mathlib.Analysis.Real.Sqrt
/-!
# Model of the check for overlapping atoms (jdftx/electronic/IonInfo.cpp:118-155)

Real arithmetic is exact. The text of the warnings is not modelled.
-/
namespace Jdftx.Core
open Jdftx.M3
noncomputable section
open Classical

/-- IonInfo.h:48 `coreOverlapCheck`. -/
inductive Cond
  | additive
  | vector
  | none
  deriving DecidableEq

/-- `SpeciesInfo::coreRadius` (SpeciesInfo.h:56) and `atpos`. -/
structure Species where
  coreRadius : ℝ
  atpos : List (V3 ℝ)

/-- IonInfo.cpp:33 `MIN_ION_DISTANCE`. -/
def minIonDistance : ℝ := 1 / 10 ^ 10

/-- IonInfo.cpp:130-133: the difference of positions is wrapped per component, then its length is taken. -/
def sizetest (R : Mat ℝ) (x y : V3 ℝ) : ℝ :=
  let v : V3 ℝ := fun i => (x i - y i) - ⌊(x i - y i) + 0.5⌋
  Real.sqrt (dot (mulMV R v) (mulMV R v))

/-- What the innermost loop body uses of a pair: both positions and radii. -/
structure Pair where
  x : V3 ℝ
  y : V3 ℝ
  r : ℝ
  r1 : ℝ

/-- IonInfo.cpp:123-130: the pairs in the order of the four loops. Comparison of pointers to species is comparison of their
numbers. -/
def visited (sps : List Species) : List Pair :=
  sps.zipIdx.flatMap fun sp => sp.1.atpos.zipIdx.flatMap fun a =>
    if sp.1.coreRadius = 0 then []
    else sps.zipIdx.flatMap fun sp1 =>
      if sp1.1.coreRadius = 0 then []
      else (sp1.1.atpos.drop (if sp1.2 = sp.2 then a.2 + 1 else 0)).map fun y => ⟨a.1, y, sp.1.coreRadius, sp1.1.coreRadius⟩

/-- IonInfo.cpp:134-146: the innermost loop body; the state is `okay`. -/
def body (cond : Cond) (R : Mat ℝ) (okay : Res Bool) (p : Pair) : Res Bool :=
  match okay with
  | .error e => .error e
  | .ok b =>
    if cond = .additive ∧ sizetest R p.x p.y < p.r + p.r1 then .ok false
    else if cond = .vector ∧ sizetest R p.x p.y < Real.sqrt (p.r ^ 2 + p.r1 ^ 2) then .ok false
    else if sizetest R p.x p.y < minIonDistance then .error .die
    else .ok b

/-- IonInfo.cpp:118-155 `checkPositions`. -/
def checkPositions (cond : Cond) (R : Mat ℝ) (sps : List Species) : Res Bool :=
  (visited sps).foldl (body cond R) (.ok true)

end

end Jdftx.Core
