/-!
# Outcomes of modelled C++ functions

`die` is a diagnosed error (`die(...)`, a failed active `assert`), `ub` is undefined behaviour or an
arithmetic trap, `diverge` is a loop that never ends.
-/
namespace Jdftx

inductive Err where
  | die
  | ub
  | diverge
  deriving DecidableEq, Repr

/-- Result of a function that may stop with an error. -/
abbrev Res (α : Type _) := Except Err α

instance {α : Type} [DecidableEq α] : DecidableEq (Res α) := fun a b =>
  match a, b with
  | .ok x, .ok y => if h : x = y then isTrue (h ▸ rfl) else isFalse (fun e => h (Except.ok.inj e))
  | .error x, .error y => if h : x = y then isTrue (h ▸ rfl) else isFalse (fun e => h (Except.error.inj e))
  | .ok _, .error _ => isFalse (fun e => by cases e)
  | .error _, .ok _ => isFalse (fun e => by cases e)

end Jdftx
