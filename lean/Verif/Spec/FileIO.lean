/-!
# Specification: values stored in memory and their little-endian serialisation
-/
namespace Jdftx.Spec

/-- `bytes` as consecutive words of `c` bytes, each written least significant byte first, given that the
machine holding them is little-endian (`isLE`) or big-endian (each word stored in opposite order). Used for
memory (`isLE` of the machine) and for the values meant by it. -/
def leBytes {β : Type} (isLE : Bool) (c : Nat) (bytes : List β) : List β :=
  if isLE then bytes
  else if _h : 0 < c ∧ bytes ≠ [] then
    (bytes.take c).reverse ++ leBytes isLE c (bytes.drop c)
  else bytes
termination_by bytes.length
decreasing_by
  have : 0 < bytes.length := List.length_pos_iff.mpr _h.2
  simp only [List.length_drop]; omega

/-- Word length used for items of `size` bytes: items of 1, 2, 4 bytes are single words, all larger
supported items are composed of 8-byte words (doubles). -/
def wordSize (size : Nat) : Nat := if size = 1 ∨ size = 2 ∨ size = 4 then size else 8

/-- Item sizes the format supports on both kinds of machine. -/
def Supported (size : Nat) : Prop := size = 1 ∨ size = 2 ∨ size = 4 ∨ (0 < size ∧ 8 ∣ size)

end Jdftx.Spec
