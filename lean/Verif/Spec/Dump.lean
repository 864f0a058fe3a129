import Verif.Model.Dump
import Mathlib.Data.List.Defs

/-!
# Specification for C54: file-name patterns

A pattern is a sequence of ordinary characters and placeholders; a placeholder may be written in any mixture of upper and
lower case.
-/
namespace Jdftx.Dump

/-- The four placeholders. -/
inductive Place where
  | input | iter | stamp | var
  deriving DecidableEq, Repr

/-- Their names. -/
def Place.name : Place → Str
  | .input => "$INPUT".toList
  | .iter => "$ITER".toList
  | .stamp => "$STAMP".toList
  | .var => "$VAR".toList

/-- The same letter up to case: lower-case letters have codes 32 above the upper-case letters `A` (65) to `Z` (90). -/
def SameLetter (a b : Char) : Prop :=
  a = b ∨ (65 ≤ a.toNat ∧ a.toNat ≤ 90 ∧ b.toNat = a.toNat + 32) ∨ (65 ≤ b.toNat ∧ b.toNat ≤ 90 ∧ a.toNat = b.toNat + 32)

/-- One piece of a pattern: an ordinary character, or a placeholder with its spelling. -/
inductive Piece where
  | ch (c : Char)
  | place (p : Place) (spelling : Str)

/-- Ordinary characters are not `$`; a spelling agrees with the name up to case. -/
def Piece.OK : Piece → Prop
  | .ch c => c ≠ '$'
  | .place p s => List.Forall₂ SameLetter s p.name

/-- The text of a pattern. -/
def text : List Piece → Str
  | [] => []
  | .ch c :: ps => c :: text ps
  | .place _ s :: ps => s ++ text ps

/-- The intended file name. -/
def expanded (val : Place → Str) : List Piece → Str
  | [] => []
  | .ch c :: ps => c :: expanded val ps
  | .place p _ :: ps => val p ++ expanded val ps

end Jdftx.Dump
