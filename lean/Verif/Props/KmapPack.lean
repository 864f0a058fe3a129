import Verif.Model.KmapPack
import Mathlib.Data.Nat.Bitwise

/-!
# C49: k-point map entries pack and unpack losslessly, in lexicographic order
-/
namespace Jdftx.Kmap

/-- Numerical value of a packed entry. -/
theorem kmapPack_toNat (iSrc : BitVec 64) (invert : Int) (iSym : BitVec 32)
    (h1 : iSrc.toNat < 2^32) (h2 : iSym.toNat < 2^31) :
    (kmapPack iSrc invert iSym).toNat =
      iSrc.toNat * 2^32 + (if invert < 0 then 2^31 else 0) + iSym.toNat := by
  have hmsb : iSym.msb = false := by
    rw [BitVec.msb_eq_decide]; simpa using h2
  have hse : (iSym.signExtend 64).toNat = iSym.toNat := by
    rw [BitVec.toNat_signExtend, hmsb]; simp [BitVec.toNat_setWidth]; omega
  have hinv : ((if invert < 0 then 1#64 else 0#64) <<< 31).toNat = if invert < 0 then 2^31 else 0 := by
    split <;> rfl
  have hsh : (iSrc <<< 32).toNat = iSrc.toNat * 2^32 := by
    rw [BitVec.toNat_shiftLeft, Nat.shiftLeft_eq, Nat.mod_eq_of_lt]
    omega
  unfold kmapPack
  rw [BitVec.toNat_or, BitVec.toNat_or, hse, hinv, hsh, Nat.or_assoc]
  have e1 : (if invert < 0 then 2^31 else 0) ||| iSym.toNat = (if invert < 0 then 2^31 else 0) + iSym.toNat := by
    split
    · have := Nat.two_pow_add_eq_or_of_lt h2 1
      simpa using this.symm
    · simp
  rw [e1, Nat.mul_comm iSrc.toNat]
  have := Nat.two_pow_add_eq_or_of_lt (i := 32) (b := (if invert < 0 then 2^31 else 0) + iSym.toNat)
    (by split <;> omega) iSrc.toNat
  rw [← this, Nat.add_assoc]

/-- Unpacking a packed entry returns source index, sign and symmetry index, for every source index below
`2^32` and every non-negative symmetry index. -/
theorem C49_roundtrip (iSrc : BitVec 64) (invert : Int) (iSym : BitVec 32)
    (h1 : iSrc.toNat < 2^32) (h2 : 0 ≤ iSym.toInt) :
    kmapUnpack (kmapPack iSrc invert iSym) = (iSrc, (if invert < 0 then -1 else 1), iSym) := by
  have h2' : iSym.toNat < 2^31 := by
    have := BitVec.toInt_eq_toNat_cond (x := iSym)
    have hlt := iSym.isLt
    rw [this] at h2
    split at h2 <;> omega
  have hv := kmapPack_toNat iSrc invert iSym h1 h2'
  generalize hk : kmapPack iSrc invert iSym = k at hv
  unfold kmapUnpack
  have hb : (0x80000000#64 &&& k).toNat = if invert < 0 then 2^31 else 0 := by
    rw [BitVec.toNat_and]
    have e : (0x80000000#64).toNat = 2^31 := rfl
    rw [e, Nat.two_pow_and, Nat.testBit_eq_decide_div_mod_eq, hv]
    split
    · have : (iSrc.toNat * 2^32 + 2^31 + iSym.toNat) / 2^31 % 2 = 1 := by omega
      rw [this]; rfl
    · have : (iSrc.toNat * 2^32 + 0 + iSym.toNat) / 2^31 % 2 = 0 := by omega
      rw [this]; rfl
  refine Prod.ext ?_ (Prod.ext ?_ ?_)
  · apply BitVec.eq_of_toNat_eq
    simp only [BitVec.toNat_ushiftRight, Nat.shiftRight_eq_div_pow, hv]
    split <;> omega
  · simp only
    split
    · rename_i h
      split
      · rfl
      · rename_i h'; rw [if_neg h'] at hb
        exact absurd (BitVec.eq_of_toNat_eq (by simpa using hb)) h
    · rename_i h
      split
      · rename_i h'; rw [if_pos h'] at hb
        simp only [ne_eq, Decidable.not_not] at h
        rw [h] at hb; simp at hb
      · rfl
  · apply BitVec.eq_of_toNat_eq
    simp only [BitVec.truncate_eq_setWidth, BitVec.toNat_setWidth, BitVec.toNat_and]
    have e : (0x7FFFFFFF#64).toNat = 2^31 - 1 := rfl
    rw [e, Nat.and_comm, Nat.and_two_pow_sub_one_eq_mod, hv]
    split <;> omega

/-- Numerical order of packed values is lexicographic: source index first, then no inversion before
inversion, then symmetry index. -/
theorem C49_order (iSrc iSrc' : BitVec 64) (invert invert' : Int) (iSym iSym' : BitVec 32)
    (h1 : iSrc.toNat < 2^32) (h1' : iSrc'.toNat < 2^32) (h2 : iSym.toNat < 2^31) (h2' : iSym'.toNat < 2^31) :
    (kmapPack iSrc invert iSym).toNat < (kmapPack iSrc' invert' iSym').toNat ↔
      iSrc.toNat < iSrc'.toNat ∨ (iSrc.toNat = iSrc'.toNat ∧
        ((¬ invert < 0 ∧ invert' < 0) ∨ ((invert < 0 ↔ invert' < 0) ∧ iSym.toNat < iSym'.toNat))) := by
  rw [kmapPack_toNat _ _ _ h1 h2, kmapPack_toNat _ _ _ h1' h2']
  by_cases ha : invert < 0 <;> by_cases hb : invert' < 0 <;> simp [ha, hb] <;> omega

/-- Any valid entry is below the initial value `~0` used for "not found" (Symmetries.cpp:96). -/
theorem C49_valid_lt_unset (iSrc : BitVec 64) (invert : Int) (iSym : BitVec 32)
    (h1 : iSrc.toNat < 2^32) (h2 : iSym.toNat < 2^31 - 1) :
    (kmapPack iSrc invert iSym).toNat < (BitVec.allOnes 64).toNat := by
  rw [kmapPack_toNat _ _ _ h1 (by omega)]
  simp only [BitVec.toNat_allOnes]
  split <;> omega

example : kmapUnpack (kmapPack 5#64 (-1) 7#32) = (5#64, -1, 7#32) ∧ (5#64).toNat < 2^32 ∧ 0 ≤ (7#32).toInt := by
  decide
/-- Outside the stated range packing is lossy: a negative symmetry index overwrites the source index. -/
theorem C49_negative_index : kmapUnpack (kmapPack 5#64 1 (-1#32)) ≠ (5#64, 1, -1#32) := by decide

end Jdftx.Kmap
