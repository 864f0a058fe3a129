import Verif.Model.Commands
/-!
# Specification vocabulary for command dependencies
-/
namespace Jdftx.Spec
open Jdftx.Cmd

variable {N : Type}

/-- Every required command exists. -/
def AllKnown (cmds : List (Command N)) : Prop :=
  ∀ c ∈ cmds, ∀ r ∈ c.requires, ∃ d ∈ cmds, d.name = r

/-- Commands can be numbered so that requirements have smaller numbers (no cyclic requirement). -/
def Acyclic (cmds : List (Command N)) : Prop :=
  ∃ rank : N → Nat, ∀ c ∈ cmds, ∀ r ∈ c.requires, rank r < rank c.name

end Jdftx.Spec
