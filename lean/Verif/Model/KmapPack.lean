/-!
# Model of `kmapPack` / `kmapUnpack` (jdftx/electronic/Symmetries.cpp:66-75)

`size_t` and `unsigned long long` are 64 bits, `int` is 32 bits two's complement.
-/
namespace Jdftx.Kmap

/-- Symmetries.cpp:66-70. `| iSym` converts the `int` to `unsigned long long` (sign extension). -/
def kmapPack (iSrc : BitVec 64) (invert : Int) (iSym : BitVec 32) : BitVec 64 :=
  (iSrc <<< 32) ||| ((if invert < 0 then 1#64 else 0#64) <<< 31) ||| iSym.signExtend 64

/-- Symmetries.cpp:71-75: `(iSrc, invert, iSym)`. -/
def kmapUnpack (kmap : BitVec 64) : BitVec 64 × Int × BitVec 32 :=
  (kmap >>> 32, if (0x80000000#64 &&& kmap) ≠ 0 then -1 else 1, (0x7FFFFFFF#64 &&& kmap).truncate 32)

end Jdftx.Kmap
