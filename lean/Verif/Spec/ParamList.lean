import Verif.Model.ParamList
/-!
# Specification of reading parameters: by words

The text is cut into words at white space. A command sees the list of words not yet read. The specification does not
use the stream.
-/
namespace Jdftx.Param

open Jdftx.Input (Str)

/-- Whether a text starts within a word. -/
def inWord : Str → Bool
  | [] => false
  | c :: _ => !isSpace c

/-- The words of a text. -/
def words : Str → List Str
  | [] => []
  | c :: cs =>
    if isSpace c then words cs
    else if inWord cs then (words cs).modifyHead (c :: ·)
    else [c] :: words cs

/-- Text of an input line: no NUL, vertical tab or form feed. -/
def Plain (t : Str) : Prop := ∀ c ∈ t, c ≠ '\x00' ∧ c ≠ '\x0b' ∧ c ≠ '\x0c'

/-- Positional value of decimal digits. -/
def natVal : Str → ℕ
  | [] => 0
  | c :: cs => (c.toNat - 48) * 10 ^ cs.length + natVal cs

/-- The word is a whole number: digits, possibly with a sign. -/
def IsWhole (w : Str) (v : ℤ) : Prop :=
  ∃ ds : Str, ds ≠ [] ∧ (∀ c ∈ ds, c.isDigit) ∧
    ((w = ds ∧ v = natVal ds) ∨ (w = '+' :: ds ∧ v = natVal ds) ∨ (w = '-' :: ds ∧ v = -natVal ds))

/-- The number fits in 32 bits. -/
def Fits (v : ℤ) : Prop := -2147483648 ≤ v ∧ v ≤ 2147483647

/-- The word starts with neither a digit nor a sign. -/
def NotNumber (w : Str) : Prop := ∀ c ∈ w.head?, ¬ c.isDigit ∧ c ≠ '+' ∧ c ≠ '-'

/-- What happened last: a word was taken (or nothing yet), there was none left, or a word was not a number. -/
inductive Status
  | ok
  | ended
  | failed
  deriving DecidableEq

/-- What a command does with a list of words: `Runs all p todo st r` says that, with `all` the words of the line and
`todo` those not yet read, the command ends with `r`.
* A call takes the next word; without words it gives the default, and throws if the parameter is required.
* At the end unread words are an error, unless the last call failed.
* Going back to the start works only after a call that got a word. -/
inductive Runs {A : Type} (all : List Str) : Prog A → List Str → Status → Except PErr A → Prop
  | done (a) : Runs all (.done a) [] .ok (.ok a)
  | extra (a) (w ws) : Runs all (.done a) (w :: ws) .ok (.error .extra)
  | doneFailed (a todo st) (h : st ≠ .ok) : Runs all (.done a) todo st (.ok a)
  | throw (e todo st) : Runs all (.throw e) todo st (.error e)
  | strEnd (d q k st r) (h : Runs all (k d (if q then some .missing else none)) [] .ended r) : Runs all (.str d q k) [] st r
  | strWord (d q k w ws st r) (h : Runs all (k w none) ws .ok r) : Runs all (.str d q k) (w :: ws) st r
  | enumEnd (f d q k st r) (h : Runs all (k d (if q then some .missing else none)) [] .ended r) :
      Runs all (.enum f d q k) [] st r
  | enumWord (f d q k w ws st r e) (hf : f w = some e) (h : Runs all (k e none) ws .ok r) :
      Runs all (.enum f d q k) (w :: ws) st r
  | enumOther (f d q k w ws st r) (hf : f w = none) (h : Runs all (k d (some .notAnOption)) ws .ok r) :
      Runs all (.enum f d q k) (w :: ws) st r
  | intEnd (d q k st r) (h : Runs all (k d (if q then some .missing else none)) [] .ended r) : Runs all (.int d q k) [] st r
  | intWord (d q k w ws st r v) (hv : IsWhole w v) (hf : Fits v) (h : Runs all (k v none) ws .ok r) :
      Runs all (.int d q k) (w :: ws) st r
  | intLarge (d q k w ws st r v) (hv : IsWhole w v) (hf : ¬ Fits v) (h : Runs all (k d (some .conversion)) ws .failed r) :
      Runs all (.int d q k) (w :: ws) st r
  | intOther (d q k w ws st r) (hw : NotNumber w) (h : Runs all (k d (some .conversion)) (w :: ws) .failed r) :
      Runs all (.int d q k) (w :: ws) st r
  | rewind (k todo r) (h : Runs all k all .ok r) : Runs all (.rewind k) todo .ok r
  | rewindNot (k todo st r) (hs : st ≠ .ok) (h : Runs all k todo st r) : Runs all (.rewind k) todo st r

/-- Whether the command reads no numbers. -/
inductive NoInt {A : Type} : Prog A → Prop
  | done (a) : NoInt (.done a)
  | throw (e) : NoInt (.throw e)
  | str (d q k) (h : ∀ w e, NoInt (k w e)) : NoInt (.str d q k)
  | enum (f d q k) (h : ∀ v e, NoInt (k v e)) : NoInt (.enum f d q k)
  | rewind (k) (h : NoInt k) : NoInt (.rewind k)

/-- What a command with string parameters `ps` (default, required) gets from the words of its line. -/
def expected (ps : List (Str × Bool)) (ws : List Str) : Except PErr (List Str) :=
  if (ps.drop ws.length).any (·.2) then .error .missing
  else if ps.length < ws.length then .error .extra
  else .ok (ws ++ (ps.drop ws.length).map (·.1))

end Jdftx.Param
