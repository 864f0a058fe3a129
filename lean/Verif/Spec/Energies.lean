import Verif.Model.Energies
/-!
# Specification of energy components

Values and the total are given from the history of operations (latest first), without a table.
-/
namespace Jdftx.Ener

open Jdftx.Input (Str)

variable {α : Type} [AddCommGroup α] [DecidableEq α]

/-- Two names that differ at most in case. -/
def Same (a b : Str) : Prop := a.map Char.toLower = b.map Char.toLower

instance (a b : Str) : Decidable (Same a b) := inferInstanceAs (Decidable (_ = _))

/-- Value of component `k` after the operations, latest first. -/
def value : List (Op α) → Str → α
  | [], _ => 0
  | .set n v :: ops, k => if Same n k then v else value ops k
  | .add n v :: ops, k => if Same n k then value ops k + v else value ops k
  | .assign v :: _, k => if Same "default".toList k then v else 0
  | .incr v :: ops, k => if Same "default".toList k then value ops k + v else value ops k

/-- Total after the operations, latest first: setting a component replaces its former value. -/
def sum : List (Op α) → α
  | [] => 0
  | .set n v :: ops => sum ops - value ops n + v
  | .add _ v :: ops => sum ops + v
  | .assign v :: _ => v
  | .incr v :: ops => sum ops + v

/-- The components after the operations, latest first. -/
def after : List (Op α) → Comps α
  | [] => []
  | o :: ops => step (after ops) o

/-- `r` is `k` without the digits and dashes at its end. -/
def Stripped (k r : Str) : Prop :=
  ∃ t, k = r ++ t ∧ (∀ c ∈ t, c.isDigit ∨ c = '-') ∧ ∀ c ∈ r.getLast?, ¬ (c.isDigit ∨ c = '-')

/-- What holds of the numbers in each mode: the energy of bands is used with a fixed Hamiltonian only
(ElecMinimizer.cpp:285-294, 499, SCF.cpp:154), entropy and chemical potential only with variable fillings
(Energies.cpp:24, ElecVars.cpp:386, ElecInfo.cpp:268-283). -/
structure Consistent (md : Mode) (e : Energies α) : Prop where
  band : md.fixedH = true → e.Eband ≠ 0
  noBand : md.fixedH = false → e.Eband = 0
  const : md.constFillings = true → e.TS = 0 ∧ e.muN = 0
  noMu : md.muNaN = true → e.muN = 0

end Jdftx.Ener
