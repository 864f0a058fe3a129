import Verif.Model.Outcome

/-!
# Model of `EnumStringMap` (jdftx/core/Util.h:197-235)

`std::map<string,Enum>` is ordered by the case-insensitive `string` of core/string.h:36-66, so two names that
agree up to case are one key; it is modelled by an association list on which `ieq` decides key equality
(`ieq` must be an equivalence, see C18; for the code it is equality of upper-cased text).
-/
namespace Jdftx.EnumMap

variable {S E : Type} [DecidableEq E]

/-- The two maps of Util.h:201-202, as association lists in order of first insertion. -/
structure EMap (S E : Type) where
  stringToEnum : List (S × E)
  enumToString : List (E × S)

/-- `m[key] = v` on a `std::map` with key equivalence `eqv`: an existing key (with its stored spelling) keeps
its place and gets the new value. -/
def assign {K V : Type} (eqv : K → K → Bool) (m : List (K × V)) (key : K) (v : V) : List (K × V) :=
  match m with
  | [] => [(key, v)]
  | (k, w) :: rest => if eqv k key then (k, v) :: rest else (k, w) :: assign eqv rest key v

/-- `m.find(key)`. -/
def find {K V : Type} (eqv : K → K → Bool) (m : List (K × V)) (key : K) : Option V :=
  match m with
  | [] => none
  | (k, v) :: rest => if eqv k key then some v else find eqv rest key

/-- Util.h:203-211: constructor from the argument list `enum1, string1, enum2, string2, ...`. -/
def construct (ieq : S → S → Bool) (args : List (E × S)) : EMap S E :=
  args.foldl (fun m a => ⟨assign ieq m.stringToEnum a.2 a.1, assign (fun x y => decide (x = y)) m.enumToString a.1 a.2⟩)
    ⟨[], []⟩

/-- Util.h:214-221 `getEnum`: `none` = returned false. -/
def getEnum (ieq : S → S → Bool) (m : EMap S E) (key : S) : Option E := find ieq m.stringToEnum key

/-- Util.h:224-227 `getString`: dereferences `end()` if the enum is not in the map. -/
def getString (m : EMap S E) (e : E) : Res S :=
  match find (fun x y => decide (x = y)) m.enumToString e with
  | some s => .ok s
  | none => .error .ub

end Jdftx.EnumMap
