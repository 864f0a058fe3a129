import Verif.Model.Constrain

/-!
# Specification for C61: which ionic motions respect the constraints

Only the input of the user (`Constraint`) is used.
-/
namespace Jdftx.Ion
open Jdftx.M3

variable {K L : Type} [Field K]

/-- Scalar product of 3-vectors. -/
def inner3 (u v : V3 K) : K := ∑ i, u i * v i

/-- The normal given for an atom in a group: the last entry with that label, zero if there is none. -/
def normalOf [DecidableEq L] (c : Constraint K L) (l : L) : V3 K :=
  match c.type with
  | .hyperPlane planes => match planes.reverse.find? (fun p => p.2 = l) with
    | some p => p.1
    | none => 0
  | _ => 0

/-- An atom's own constraint is respected. -/
def AtomOK (c : Constraint K L) (v : V3 K) : Prop :=
  (c.moveScale = 0 → v = 0) ∧
  (c.moveScale ≠ 0 → ∀ d, c.type = .linear d → ∃ t : K, v = t • d) ∧
  (c.moveScale ≠ 0 → ∀ d, c.type = .planar d → inner3 d v = 0)

/-- A collective constraint is respected. -/
def GroupOK [DecidableEq L] {n : Nat} (cs : Fin n → Constraint K L) (l : L) (x : Motion K n) : Prop :=
  ∑ a, inner3 (normalOf (cs a) l) (x a) = 0

/-- A label used by some atom. -/
def UsedLabel {n : Nat} (cs : Fin n → Constraint K L) (l : L) : Prop :=
  ∃ a planes p, (cs a).type = .hyperPlane planes ∧ p ∈ planes ∧ p.2 = l

/-- What the `ion` command accepts (jdftx/commands/ion.cpp:106-141): no constraint on a fixed atom, non-null line and plane
vectors. -/
def Accepted (c : Constraint K L) : Prop :=
  (c.moveScale = 0 → c.type = .none) ∧ (∀ d, c.type = .linear d → inner3 d d ≠ 0) ∧ (∀ d, c.type = .planar d → inner3 d d ≠ 0)

/-- No atom carries a constraint. -/
def Unconstrained {n : Nat} (cs : Fin n → Constraint K L) : Prop := ∀ a, (cs a).moveScale ≠ 0 ∧ (cs a).type = .none

end Jdftx.Ion
