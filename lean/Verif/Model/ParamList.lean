import Verif.Model.InputText
import Mathlib.Data.Nat.Notation
import Mathlib.Data.Int.Notation
/-!
# Model of reading the parameters of a command (jdftx/commands/ParamList.h, jdftx/commands/parser.cpp:301-317)

The stream is an `istringstream` of the C++ library: the text, the part not yet read, and the flags `eofbit` and
`failbit`. The flag `badbit`, which is never set for a stream on a string, is left out. Numbers are modelled for
`int` (decimal, the default locale); reading of floating-point numbers is not modelled. Messages are reduced to
their kind.
-/
namespace Jdftx.Param

open Jdftx.Input (Str trim)

/-- White space of the C++ library in the default locale (`isspace`). -/
def isSpace (c : Char) : Bool :=
  c = ' ' || c = '\t' || c = '\n' || c = '\x0b' || c = '\x0c' || c = '\r'

/-- `istringstream iss` (ParamList.h:35): whole text, text not yet read, `eofbit`, `failbit`. -/
structure Stream where
  text : Str
  rest : Str
  eof : Bool
  fail : Bool
  deriving DecidableEq, Repr

/-- What can be thrown: ParamList.h:57 (also 78), 60, 83, and parser.cpp:308. -/
inductive PErr
  | missing
  | conversion
  | notAnOption
  | extra
  deriving DecidableEq, Repr

/-- ParamList.h:38: construction from the text of the parameters. -/
def start (params : Str) : Stream := ⟨params, params, false, false⟩

/-- `iss.clear()` (ParamList.h:52, 72). -/
def Stream.clear (s : Stream) : Stream := { s with eof := false, fail := false }

/-- ParamList.h:41 `rewind`: `seekg` of the C++ library resets `eofbit`, and does nothing else if `failbit` is
set. -/
def Stream.rewind (s : Stream) : Stream :=
  if s.fail then { s with eof := false } else { s with rest := s.text, eof := false }

/-- `iss >> t` for a `string` (core/string.h:60): nothing is read if a flag is set; else white space is skipped, then all
up to white space or the end is read. The text goes through `c_str()`, so it ends at a NUL. -/
def readWord (s : Stream) : Str × Stream :=
  let r := s.rest.dropWhile isSpace
  if s.eof || s.fail then ([], { s with fail := true })
  else if r = [] then ([], { s with rest := [], eof := true, fail := true })
  else
    let r' := r.dropWhile (fun c => !isSpace c)
    ((r.takeWhile (fun c => !isSpace c)).takeWhile (fun c => c ≠ '\x00'), { s with rest := r', eof := r'.isEmpty, fail := false })

/-- A sign at the start of a number: whether it is a minus, and what follows. -/
def sign : Str → Bool × Str
  | [] => (false, [])
  | c :: cs => if c = '-' then (true, cs) else if c = '+' then (false, cs) else (false, c :: cs)

/-- Value of digits. -/
def digits (ds : Str) : ℕ := ds.foldl (fun a c => 10 * a + (c.toNat - 48)) 0

/-- `iss >> t` for an `int` (32 bits): nothing is read if a flag is set; else white space is skipped, then a sign and
digits are read, up to the first other character. No digits, or a number that does not fit, set `failbit`. The value is
not used when `failbit` is set; it is 0 here. -/
def readInt (s : Stream) : ℤ × Stream :=
  let r := s.rest.dropWhile isSpace
  if s.eof || s.fail then (0, { s with fail := true })
  else if r = [] then (0, { s with rest := [], eof := true, fail := true })
  else
    let sg := sign r
    let ds := sg.2.takeWhile Char.isDigit
    let r' := sg.2.dropWhile Char.isDigit
    let v : ℤ := if sg.1 then -(digits ds : ℤ) else digits ds
    if ds = [] ∨ v < -2147483648 ∨ 2147483647 < v then (0, { s with rest := r', eof := r'.isEmpty, fail := true })
    else (v, { s with rest := r', eof := r'.isEmpty, fail := false })

/-- ParamList.h:55-60: the value stored and what is thrown, after reading `t`. -/
def finish {T : Type} (t dflt : T) (required : Bool) (s : Stream) : T × Option PErr :=
  if s.eof then (dflt, if required then some .missing else none)
  else if s.fail then (dflt, some .conversion)
  else (t, none)

/-- ParamList.h:50-61 `get` for a string. -/
def getStr (dflt : Str) (required : Bool) (s : Stream) : (Str × Option PErr) × Stream :=
  let r := readWord s.clear
  (finish r.1 dflt required r.2, r.2)

/-- ParamList.h:50-61 `get` for an integer. -/
def getInt (dflt : ℤ) (required : Bool) (s : Stream) : (ℤ × Option PErr) × Stream :=
  let r := readInt s.clear
  (finish r.1 dflt required r.2, r.2)

/-- ParamList.h:70-85 `get` for an enumeration, given by the number of each option; `lookup` is
`tMap.getEnum` (modelled in `EnumMap.lean`). -/
def getEnum (lookup : Str → Option ℤ) (dflt : ℤ) (required : Bool) (s : Stream) : (ℤ × Option PErr) × Stream :=
  let r := readWord s.clear
  (if r.2.eof then (dflt, if required then some .missing else none)
   else match lookup r.1 with
     | some e => (e, none)
     | none => (dflt, some .notAnOption), r.2)

/-- ParamList.h:88-101 `getRemainder`. With `failbit` both calls of `tellg` return -1, so the result is empty. -/
def remainder (s : Stream) : Str :=
  if s.eof then []
  else if s.fail then []
  else trim s.rest

/-- The calls that `process` of a command makes (commands/*.cpp). What it does next may depend on values obtained and
on whether the call threw: a command that does not catch continues with `throw`. -/
inductive Prog (A : Type) where
  | done (a : A)
  | throw (e : PErr)
  | str (dflt : Str) (required : Bool) (k : Str → Option PErr → Prog A)
  | enum (lookup : Str → Option ℤ) (dflt : ℤ) (required : Bool) (k : ℤ → Option PErr → Prog A)
  | int (dflt : ℤ) (required : Bool) (k : ℤ → Option PErr → Prog A)
  | rewind (k : Prog A)

/-- Running the calls on a stream. -/
def exec {A : Type} : Prog A → Stream → Except PErr A × Stream
  | .done a, s => (.ok a, s)
  | .throw e, s => (.error e, s)
  | .str d q k, s => exec (k (getStr d q s).1.1 (getStr d q s).1.2) (getStr d q s).2
  | .enum f d q k, s => exec (k (getEnum f d q s).1.1 (getEnum f d q s).1.2) (getEnum f d q s).2
  | .int d q k, s => exec (k (getInt d q s).1.1 (getInt d q s).1.2) (getInt d q s).2
  | .rewind k, s => exec k s.rewind

/-- parser.cpp:302-317: run the command; what it left unread is an error. -/
def process {A : Type} (p : Prog A) (params : Str) : Except PErr A :=
  match (exec p (start params)).1 with
  | .error e => .error e
  | .ok a => if remainder (exec p (start params)).2 = [] then .ok a else .error .extra

/-- parser.cpp:356-357: a space is added at the end. -/
def processLine {A : Type} (p : Prog A) (params : Str) : Except PErr A := process p (params ++ [' '])

/-- A command that reads strings with the given defaults, some of them required, and catches nothing (calls of
ParamList.h:50-61 one after the other, as in the commands). `acc` are the values so far. -/
def readAll : List (Str × Bool) → List Str → Prog (List Str)
  | [], acc => .done acc
  | (d, q) :: ps, acc => .str d q fun w e =>
      match e with
      | some e => .throw e
      | none => readAll ps (acc ++ [w])

end Jdftx.Param
