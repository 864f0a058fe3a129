import Verif.Model.Outcome
import Mathlib.Logic.Function.Basic
/-!
# Model of command ordering and processing (jdftx/commands/parser.cpp, commands/command.cpp)

The command map (`std::map<string,Command*>`, command.cpp:24-28, key = `Command::name`) is the list of its
commands in map order; names are an arbitrary type `N` with decidable equality (in the code: strings up to
case). The effect of `Command::process` is an arbitrary function on an arbitrary state `W` (`Everything`) that
may also report an error.
-/
namespace Jdftx.Cmd

/-- commands/command.h:63-84 `Command`; `emptyParamError` only as a flag. -/
structure Command (N : Type) where
  name : N
  requires : List N
  forbids : List N
  sect : Nat := 0
  allowMultiple : Bool := false
  hasDefault : Bool := false
  emptyParamError : Bool := false
deriving Repr

variable {N : Type} [DecidableEq N]

/-- `find` in the command map. -/
def lookup (cmds : List (Command N)) (n : N) : Option (Command N) := cmds.find? (·.name = n)

/-- Levels assigned so far; `none` is `INT_MAX` (parser.cpp:44). -/
abbrev Levels (N : Type) := N → Option Nat

/-- parser.cpp:52-60: `ready`, given the names still to be looked at. -/
def checkRequires (cmds : List (Command N)) (lev : Levels N) (nPasses : Nat) : List N → Res Bool
  | [] => .ok true
  | r :: rs =>
    if (lookup cmds r).isNone then .error .die
    else match lev r with
      | none => .ok false
      | some l => if l ≥ nPasses then .ok false else checkRequires cmds lev nPasses rs

/-- parser.cpp:49-66: one pass over (the rest of) the map; returns levels, `nProcessed` and `nRemaining`. -/
def sweep (cmds : List (Command N)) (nPasses : Nat) :
    List (Command N) → Levels N → Nat → Nat → Res (Levels N × Nat × Nat)
  | [], lev, nP, nR => .ok (lev, nP, nR)
  | c :: cs, lev, nP, nR =>
    if (lev c.name).all (· > nPasses) then
      match checkRequires cmds lev nPasses c.requires with
      | .error e => .error e
      | .ok true => sweep cmds nPasses cs (Function.update lev c.name (some nPasses)) (nP + 1) nR
      | .ok false => sweep cmds nPasses cs lev nP (nR + 1)
    else sweep cmds nPasses cs lev nP nR

/-- parser.cpp:46-75: passes until all commands have a level. The loop has no bound in the code; here `fuel`
counts the passes and running out of it is reported as divergence (shown impossible in `C10_levels`). -/
def passes (cmds : List (Command N)) : (fuel nPasses : Nat) → Levels N → Res (Levels N × Nat)
  | 0, _, _ => .error .diverge
  | fuel + 1, nPasses, lev =>
    match sweep cmds nPasses cmds lev 0 0 with
    | .error e => .error e
    | .ok (lev', nProcessed, nRemaining) =>
      if nRemaining = 0 then .ok (lev', nPasses)
      else if nProcessed = 0 then .error .die
      else passes cmds fuel (nPasses + 1) lev'

/-- parser.cpp:40-75: levels of all commands and the last pass. -/
def buildLevels (cmds : List (Command N)) : Res (Levels N × Nat) := passes cmds (cmds.length + 1) 0 (fun _ => none)

/-- parser.cpp:85-90: `cj.forbids.insert(ci.name)` if missing and in the same section. -/
def addForbid (ci : Command N) (f : N) (cmds : List (Command N)) : List (Command N) :=
  cmds.map fun cj => if cj.name = f ∧ ci.name ∉ cj.forbids ∧ cj.sect = ci.sect
    then { cj with forbids := cj.forbids ++ [ci.name] } else cj

/-- parser.cpp:80-91 for one command (its current entry in the map). -/
def mutualOne (cmds : List (Command N)) (ci : Command N) : Res (List (Command N)) :=
  match lookup cmds ci.name with
  | none => .ok cmds
  | some c => c.forbids.foldlM (fun cmds f =>
      if (lookup cmds f).isNone then .error .die else .ok (addForbid c f cmds)) cmds

/-- parser.cpp:76-92: make forbids mutual. (The consistency check of lines 93-109, which can only abort, is not
modelled.) -/
def mutualForbids (cmds : List (Command N)) : Res (List (Command N)) := cmds.foldlM mutualOne cmds

/-- A call of `safeProcess`: name, parameters, and whether it is for a default. -/
structure Call (N : Type) where
  name : N
  params : List Char
  dflt : Bool
deriving DecidableEq, Repr

/-- Local variables of `parse` (parser.cpp:325-326) and `everything`. `calls` and `ran` are ghost logs of the
calls of `safeProcess` and of `Command::process`. -/
structure PState (N W : Type) where
  encountered : N → Nat
  errors : List N
  world : W
  calls : List (Call N)
  ran : List (Call N)

/-- What the commands do. `process` returns the new state and whether an error was thrown (including extra
arguments, parser.cpp:306-308); `dropUnused` is parser.cpp:368-374, `ion` the name tested in line 346. -/
structure Semantics (N W : Type) where
  process : N → List Char → W → W × Bool
  ion : N
  dropUnused : W → W

variable {W : Type}

/-- parser.cpp:277-318 `safeProcess`. -/
def safeProcess (sem : Semantics N W) (c : Command N) (params : List Char) (dflt : Bool) (s : PState N W) :
    PState N W :=
  let call : Call N := ⟨c.name, params, dflt⟩
  let enc := Function.update s.encountered c.name (s.encountered c.name + 1)
  let s := { s with encountered := enc, calls := s.calls ++ [call] }
  if c.requires.any (fun r => enc r = 0) then { s with errors := s.errors ++ [c.name] }
  else if !c.allowMultiple && enc c.name > 1 then { s with errors := s.errors ++ [c.name] }
  else
    let errs := s.errors ++ (c.forbids.filter (fun f => enc f ≠ 0)).map (fun _ => c.name)
    let r := sem.process c.name params s.world
    { s with
      errors := errs ++ if r.2 then [c.name] else []
      world := r.1
      ran := s.ran ++ [call] }

/-- core/string.h:48-55 `trim` leaves nothing. -/
def isBlank (s : List Char) : Bool := s.all (fun c => c = ' ' || c = '\t' || c = '\n' || c = '\r')

/-- parser.cpp:343-358: body of the loop over the input. -/
def inputStep (sem : Semantics N W) (cmds : List (Command N)) (lev : Levels N) (pass : Nat)
    (s : PState N W) (i : N × List Char) : PState N W :=
  if lev i.1 = some pass then
    match lookup cmds i.1 with
    | none => s
    | some c =>
      let s := if isBlank i.2 && c.emptyParamError then { s with errors := s.errors ++ [c.name] } else s
      safeProcess sem c (i.2 ++ [' ']) false s
  else s

/-- parser.cpp:361-366: defaults. -/
def defaultStep (sem : Semantics N W) (lev : Levels N) (pass : Nat) (s : PState N W) (c : Command N) :
    PState N W :=
  if lev c.name = some pass then
    if c.hasDefault && s.encountered c.name = 0 then safeProcess sem c [] true s else s
  else s

/-- parser.cpp:340-375: one pass. -/
def onePass (sem : Semantics N W) (cmds : List (Command N)) (lev : Levels N) (input : List (N × List Char))
    (s : PState N W) (pass : Nat) : PState N W :=
  let s1 := input.foldl (inputStep sem cmds lev pass) s
  let s2 := cmds.foldl (defaultStep sem lev pass) s1
  if input.any (fun i => lev i.1 = some pass && i.1 = sem.ion) then { s2 with world := sem.dropUnused s2.world }
  else s2

/-- parser.cpp:329-375: unknown names (as a list, in order of first occurrence or not), and the final state. -/
def parseState (sem : Semantics N W) (cmds : List (Command N)) (lev : Levels N) (nPasses : Nat)
    (input : List (N × List Char)) (w : W) : PState N W :=
  (List.range (nPasses + 1)).foldl
    (onePass sem cmds lev (input.filter (fun i => (lookup cmds i.1).isSome)))
    ⟨fun _ => 0, [], w, [], []⟩

/-- parser.cpp:329-336: unknown commands in the input. -/
def unknownNames (cmds : List (Command N)) (input : List (N × List Char)) : List N :=
  (input.filter (fun i => (lookup cmds i.1).isNone)).map (·.1)

/-- parser.cpp:320-386: parse and die if there were any errors. -/
def parse (sem : Semantics N W) (orig : List (Command N)) (input : List (N × List Char)) (w : W) :
    Res (PState N W) := do
  let (lev, nPasses) ← buildLevels orig
  let cmds ← mutualForbids orig
  let s := parseState sem cmds lev nPasses input w
  if unknownNames cmds input = [] ∧ s.errors = [] then .ok s else .error .die

end Jdftx.Cmd
