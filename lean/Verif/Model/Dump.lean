import Verif.Model.Outcome

/-!
# Model of output naming and scheduling (jdftx/electronic/Dump.cpp, jdftx/commands/dump.cpp)
-/
namespace Jdftx.Dump

abbrev Str := List Char

/-- `toupper` of C in the default locale, as character code. -/
def upper (c : Char) : Nat := if 97 ≤ c.toNat ∧ c.toNat ≤ 122 then c.toNat - 32 else c.toNat

/-- Case-insensitive character equality (core/string.h:36 `ichar_traits::eq`). -/
def ieq (a b : Char) : Bool := upper a = upper b

/-- Does the text start with the key? (`ichar_traits::compare` on `key.length()` characters, core/string.h:39.) -/
def startsWith : Str → Str → Bool
  | [], _ => true
  | _ :: _, [] => false
  | k :: ks, c :: cs => ieq c k && startsWith ks cs

/-- Dump.cpp:821-823: `find` and `replace` of the first occurrence; `none` when there is no occurrence. -/
def replaceFirst (key val : Str) : Str → Option Str
  | [] => if startsWith key [] then some val else none
  | c :: cs =>
    if startsWith key (c :: cs) then some (val ++ (c :: cs).drop key.length)
    else (replaceFirst key val cs).map (c :: ·)

/-- Dump.cpp:819-826: one pass over the substitutions; the flag is `found`. -/
def onePass (subs : List (Str × Str)) (s : Str) : Str × Bool :=
  subs.foldl (fun acc sub => match replaceFirst sub.1 sub.2 acc.1 with
    | some s' => (s', true)
    | none => acc) (s, false)

/-- Dump.cpp:818-828: at most `n` passes; `none` if the loop has not ended by then. -/
def expandN (subs : List (Str × Str)) : Nat → Str → Option Str
  | 0, _ => none
  | n+1, s => match onePass subs s with
    | (s', true) => expandN subs n s'
    | (s', false) => some s'

/-- Dump.cpp:805-811: the substitutions in the order of the `std::map`: `$INPUT`, `$ITER`, `$STAMP`, `$VAR`. -/
def subMap (varName iter stamp input : Str) : List (Str × Str) :=
  [("$INPUT".toList, input), ("$ITER".toList, iter), ("$STAMP".toList, stamp), ("$VAR".toList, varName)]

/-- Dump.cpp:813-816: pattern for the current frequency. -/
def choosePattern {F : Type} [DecidableEq F] (format : Str) (formatFreq : List (F × Str)) (freq : F) : Str :=
  match formatFreq.find? (fun p => p.1 = freq) with
  | some p => p.2
  | none => format

/-! ### Frequencies -/

/-- Dump.h:33-42 `DumpFrequency`. -/
inductive Freq where
  | end_ | init | electronic | ionic | gummel | fluid
  deriving DecidableEq, Repr

/-- The fields of `Dump` that decide what is written: set of (frequency, variable) pairs and the map `interval`. Variables are
numbers; `state` is `DumpState`, 0 is `DumpNone`. -/
structure Table where
  vars : List (Freq × Nat)
  interval : List (Freq × Int)
  deriving DecidableEq, Repr

/-- `DumpNone` and `DumpState` (Dump.h:44-45). -/
def dumpNone : Nat := 0
def dumpState : Nat := 1

/-- commands/dump.cpp:279-294: `dump-interval`. -/
def dumpInterval (t : Table) (freq : Freq) (interval : Int) : Res Table :=
  if freq = .end_ ∨ freq = .init then .error .die
  else if (t.interval.find? (fun p => p.1 = freq)).isSome then .error .die
  else if interval < 1 then .error .die
  else .ok { t with interval := t.interval ++ [(freq, interval)] }

/-- commands/dump.cpp:237-246: `dump` adds a pair to a set. -/
def dumpAdd (t : Table) (freq : Freq) (var : Nat) : Table :=
  if (freq, var) ∈ t.vars then t else { t with vars := t.vars ++ [(freq, var)] }

/-- Dump.cpp:797-802 `checkInterval`; `%` of a negative number truncates towards zero, a zero divisor traps. -/
def checkInterval (t : Table) (freq : Freq) (iter : Int) : Res Bool :=
  match t.interval.find? (fun p => p.1 = freq) with
  | none => .ok true
  | some p => if p.2 = 0 then .error .ub else .ok ((iter + 1).tmod p.2 = 0)

/-- Dump.cpp:67-84: variables written at this call (in table order), and the table afterwards. -/
def operatorCall (t : Table) (killFlag : Bool) (freq : Freq) (iter : Int) : Res (List Nat × Table) :=
  match checkInterval t freq iter with
  | .error e => .error e
  | .ok false => .ok ([], t)
  | .ok true =>
    let t' := if freq = .end_ && killFlag then dumpAdd t .end_ dumpState else t
    .ok ((t'.vars.filter (fun p => p.1 = freq ∧ p.2 ≠ dumpNone)).map Prod.snd, t')

end Jdftx.Dump
