import Verif.Model.InputText
/-!
# Specification of input text processing
-/
namespace Jdftx.Spec
open Jdftx.Input

/-- `s` contains a reference opening. -/
def HasRef (s : Str) : Prop := ∃ a b, s = a ++ '$' :: '{' :: b

/-- `t` is `s` with each reference `${name}` replaced by the value of `name`, in one pass from left to right;
the text between references contains no `$`. -/
inductive Replaced (env : Env) : Str → Str → Prop
  | plain (s : Str) : '$' ∉ s → Replaced env s s
  | ref (pre name post t : Str) : '$' ∉ pre → '}' ∉ name → Replaced env post t →
      Replaced env (pre ++ '$' :: '{' :: name ++ '}' :: post) (pre ++ env name ++ t)

/-- White space. -/
def White (c : Char) : Prop := c = ' ' ∨ c = '\t' ∨ c = '\n' ∨ c = '\r'

/-- `t` is `s` without surrounding white space. -/
def Trimmed (s t : Str) : Prop :=
  ∃ a b, s = a ++ t ++ b ∧ (∀ c ∈ a, White c) ∧ (∀ c ∈ b, White c) ∧
    (∀ c, t.head? = some c → ¬ White c) ∧ (∀ c, t.getLast? = some c → ¬ White c)

/-- `w` is the text of `s` up to the first white space, and `r` the rest. -/
def Word (s w r : Str) : Prop := s = w ++ r ∧ (∀ c ∈ w, ¬ White c) ∧ ∀ c, r.head? = some c → White c

/-- `env'` is `env` with the variable set; names that are empty or contain `=` cannot be set. -/
def Assigned (env : Env) (name value : Str) (env' : Env) : Prop :=
  (name = [] ∨ '=' ∈ name → env' = env) ∧
  (¬ (name = [] ∨ '=' ∈ name) → env' name = value ∧ ∀ n, n ≠ name → env' n = env n)

/-- `t` is the part of `s` before the first `#`. -/
def Uncommented (s t : Str) : Prop := '#' ∉ t ∧ (s = t ∨ ∃ r, s = t ++ '#' :: r)

/-- What a physical line contributes: comment removed, trimmed, variables substituted. -/
def Processed (subst : Str → Res Str) (phys q : Str) : Prop :=
  ∃ u t, Uncommented phys u ∧ Trimmed u t ∧ subst t = .ok q

/-- Pieces joined by single blanks, leading empty pieces dropped. -/
def joinBlank (ps : List Str) : Str := [' '].intercalate (ps.dropWhile (· = []))

/-- Textual expansion of a stack of texts (physical lines still to be read; an included file is put on top of
the rest of the including one), from an environment to a final environment and the list of commands. It knows
nothing about cycles. -/
inductive Expansion (ctx : Ctx) : Env → List (List Str) → Env → List (Str × Str) → Prop
  | done (env) : Expansion ctx env [] env []
  | eof (env ts env' cs) : Expansion ctx env ts env' cs → Expansion ctx env ([] :: ts) env' cs
  | blank (env ls rest ts env' cs) : ls ≠ [] → readLine (ctx.subst env) [] ls = .ok ([], rest) →
      Expansion ctx env (rest :: ts) env' cs → Expansion ctx env (ls :: ts) env' cs
  | set (env ls line rest ts env' cs w r p name v value env1) : ls ≠ [] → readLine (ctx.subst env) [] ls = .ok (line, rest) →
      line ≠ [] → Word line w r → ieq w "set".toList → Trimmed r p → Word p name v → Trimmed v value →
      Assigned env name value env1 → Expansion ctx env1 (rest :: ts) env' cs → Expansion ctx env (ls :: ts) env' cs
  | incl (env ls line rest ts env' cs text w r file) : ls ≠ [] → readLine (ctx.subst env) [] ls = .ok (line, rest) →
      line ≠ [] → Word line w r → ieq w "include".toList → Trimmed r file → ctx.fs file = some text →
      Expansion ctx env (splitLines text :: rest :: ts) env' cs → Expansion ctx env (ls :: ts) env' cs
  | command (env ls line rest ts env' cs c w r) : ls ≠ [] → readLine (ctx.subst env) [] ls = .ok (line, rest) →
      line ≠ [] → Word line w r → ¬ ieq w "set".toList → ¬ ieq w "include".toList →
      (match ctx.depr w with
        | none => c = (w, r)
        | some f => f (r ++ [' ']) = some c) →
      Expansion ctx env (rest :: ts) env' cs → Expansion ctx env (ls :: ts) env' (c :: cs)

/-- File `f` contains a line (read from some physical line on, in some environment) that includes `g`. -/
def Includes (ctx : Ctx) (f g : Str) : Prop :=
  ∃ text, ctx.fs f = some text ∧ ∃ pre suf env line rest w r, splitLines text = pre ++ suf ∧
    readLine (ctx.subst env) [] suf = .ok (line, rest) ∧ Word line w r ∧ ieq w "include".toList ∧ Trimmed r g

end Jdftx.Spec
