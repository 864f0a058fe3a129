import Verif.Model.Outcome
import Mathlib.Logic.Function.Basic
/-!
# Model of reading input files (jdftx/commands/parser.cpp:140-274, core/string.h)

Text is a list of characters without NUL (the code goes through `c_str()`). A file is the list of its physical
lines: `getline` reads up to a line feed, and the stream is at its end exactly when the last piece (possibly
empty) has been read.
-/
namespace Jdftx.Input

abbrev Str := List Char

/-- Environment: `getenv`, a missing variable counting as empty (parser.cpp:149-150). -/
abbrev Env := Str → Str

/-- White space removed by `trim` and ending a command name (core/string.h:50, parser.cpp:199). -/
def isWs (c : Char) : Bool := c = ' ' || c = '\t' || c = '\n' || c = '\r'

/-- core/string.h:48-55 `trim`. -/
def trim (s : Str) : Str := ((s.reverse.dropWhile isWs).reverse).dropWhile isWs

/-- `s.find("${")`: text before it and after it. -/
def splitOpen : Str → Option (Str × Str)
  | [] => none
  | [_] => none
  | c :: d :: cs =>
    if c = '$' ∧ d = '{' then some ([], cs) else (splitOpen (d :: cs)).map fun r => (c :: r.1, r.2)

/-- `s.find("}", ...)`: text before it and after it. -/
def splitClose : Str → Option (Str × Str)
  | [] => none
  | c :: cs => if c = '}' then some ([], cs) else (splitClose cs).map fun r => (c :: r.1, r.2)

/-- parser.cpp:143-150: one iteration; `none` when there is nothing to replace. -/
def substStep (env : Env) (s : Str) : Res (Option Str) :=
  match splitOpen s with
  | none => .ok none
  | some (pre, rest) =>
    match splitClose rest with
    | none => .error .die
    | some (name, post) => .ok (some (pre ++ env name ++ post))

/-- parser.cpp:142-151: the first `n` iterations; `none` if the loop has not ended by then. -/
def substN (env : Env) : Nat → Str → Option (Res Str)
  | 0, _ => none
  | n + 1, s =>
    match substStep env s with
    | .error e => some (.error e)
    | .ok none => some (.ok s)
    | .ok (some s') => substN env n s'

open Classical in
/-- parser.cpp:141-152 `environmentSubstitute`: the result of the loop if it ends. -/
noncomputable def environmentSubstitute (env : Env) (s : Str) : Res Str :=
  if h : ∃ n r, substN env n s = some r then h.choose_spec.choose else .error .diverge

/-- parser.cpp:161-163: remove comments. -/
def stripComment (s : Str) : Str := s.takeWhile (· ≠ '#')

/-- parser.cpp:155-178 `readLine` on the remaining physical lines; `line` is the line buffer, `subst` is
`environmentSubstitute`. Returns the logical line and the physical lines left. -/
def readLine (subst : Str → Res Str) : (line : Str) → List Str → Res (Str × List Str)
  | line, [] => .ok (line, [])
  | line, l :: ls =>
    match subst (trim (stripComment l)) with
    | .error e => .error e
    | .ok lineIn =>
      let sep : Str := if line = [] then [] else [' ']
      if lineIn.getLast? = some '\\' then readLine subst (line ++ sep ++ lineIn.dropLast) ls
      else .ok (line ++ sep ++ lineIn, ls)

/-- Ways `readInputFile` ends early. -/
inductive ReadErr where
  | cannotOpen (name : Str) | noFileName | cyclic (name : Str) | subst (e : Err) | deprecated | diverge
deriving DecidableEq, Repr

/-- Context: files (`[]` is standard input), environment substitution, replacement of deprecated commands
(`none` for commands that are not deprecated, inner `none` for an error). -/
structure Ctx where
  fs : Str → Option Str
  subst : Env → Str → Res Str
  depr : Str → Option (Str → Option (Str × Str))

/-- core/string.h:35-45: strings compare without regard to case. -/
def ieq (a b : Str) : Bool := a.map Char.toLower = b.map Char.toLower

/-- parser.cpp:199: command name of a line. -/
def firstWord (line : Str) : Str := line.takeWhile (fun c => !isWs c)

/-- `setenv` (parser.cpp:209): fails without effect for an empty name or a name with `=`. -/
def setenv (env : Env) (name value : Str) : Env :=
  if name = [] ∨ '=' ∈ name then env else Function.update env name value

/-- Commands read so far with the environment. -/
abbrev RState := Env × List (Str × Str)

/-- parser.cpp:197-237: effect of a logical line. `inc` reads an included file. -/
def processLine (ctx : Ctx) (inc : Str → RState → Except ReadErr RState) (st : RState) (line : Str) :
    Except ReadErr RState :=
  if line = [] then .ok st
  else
    let cmd := firstWord line
    let params := line.drop cmd.length
    if ieq cmd "set".toList then
      let params := trim params
      let varName := firstWord params
      let varValue := params.drop varName.length
      .ok (setenv st.1 (trim varName) (trim varValue), st.2)
    else if ieq cmd "include".toList then
      let params := trim params
      if params = [] then .error .noFileName else inc params st
    else match ctx.depr cmd with
      | some replace =>
        match replace (params ++ [' ']) with
        | some r => .ok (st.1, st.2 ++ [r])
        | none => .error .deprecated
      | none => .ok (st.1, st.2 ++ [(cmd, params)])

/-- parser.cpp:195-238: loop over the lines of a file; every iteration reads at least one physical line, so
`n = number of lines` iterations suffice. -/
def fileLoop (ctx : Ctx) (inc : Str → RState → Except ReadErr RState) :
    Nat → RState → List Str → Except ReadErr RState
  | _, st, [] => .ok st
  | 0, _, _ :: _ => .error .diverge
  | n + 1, st, l :: ls =>
    match readLine (ctx.subst st.1) [] (l :: ls) with
    | .error e => .error (.subst e)
    | .ok (line, rest) =>
      match processLine ctx inc st line with
      | .error e => .error e
      | .ok st' => fileLoop ctx inc n st' rest

/-- Physical lines of a text. -/
def splitLines : Str → List Str
  | [] => [[]]
  | c :: cs =>
    if c = '\n' then [] :: splitLines cs
    else match splitLines cs with
      | [] => [[c]]
      | l :: ls => (c :: l) :: ls

/-- parser.cpp:183-241 `readInputFile`; `stack` is the list of open files, the current one (`name`) first.
`fuel` bounds the nesting of includes; exhausting it is reported as divergence. -/
def readFile (ctx : Ctx) : (fuel : Nat) → (stack : List Str) → (name : Str) → RState → Except ReadErr RState
  | 0, _, _, _ => .error .diverge
  | k + 1, stack, name, st =>
    match ctx.fs name with
    | none => .error (.cannotOpen name)
    | some text =>
      fileLoop ctx
        (fun p st => if stack.any (ieq · p) then .error (.cyclic p) else readFile ctx k (p :: stack) p st)
        (splitLines text).length st (splitLines text)

/-- `getline` from a string stream (core/string.h:62-67); at the end of the stream it gives an empty string. -/
def getline (s : Str) : Str × Str := (s.takeWhile (· ≠ '\n'), (s.dropWhile (· ≠ '\n')).drop 1)

/-- parser.cpp:259-262: the text sent to the other processes. -/
def serialize (input : List (Str × Str)) : Str := input.flatMap fun p => p.1 ++ '\n' :: p.2 ++ ['\n']

/-- parser.cpp:265-271: how another process decodes `n` entries. -/
def deserialize : Nat → Str → List (Str × Str)
  | 0, _ => []
  | n + 1, s =>
    let a := getline s
    let b := getline a.2
    (a.1, b.1) :: deserialize n b.2

/-- parser.cpp:251-272: the list seen by another process. -/
def received (input : List (Str × Str)) : List (Str × Str) := deserialize input.length (serialize input)

end Jdftx.Input
