import Mathlib.Data.Int.Basic

/-! # Specification of suitable FFT sizes -/
namespace Jdftx.Spec

/-- A product of powers of 2, 3, 5 and 7. -/
def Smooth7 (n : Int) : Prop := ∃ a b c d : Nat, n = 2 ^ a * 3 ^ b * 5 ^ c * 7 ^ d

end Jdftx.Spec
