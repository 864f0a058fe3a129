import Verif.Model.Outcome
/-!
# Model of binary I/O (jdftx/core/Util.cpp:526-598, jdftx/core/MPIUtil.cpp:326-367)

Memory and file contents are lists of bytes of an arbitrary type `β`. `isLE` says whether the machine is
little-endian (`isLittleEndian`, Util.cpp:526-544; mixed-endian machines die there and are not modelled).
-/
namespace Jdftx.FileIO

variable {β : Type}

/-- `std::swap(bytes[i], bytes[j])`; access outside the buffer is undefined behaviour. -/
def swapAt (l : List β) (i j : Nat) : Res (List β) :=
  match l[i]?, l[j]? with
  | some a, some b => .ok ((l.set i b).set j a)
  | _, _ => .error .ub

/-- Util.cpp:572-574: byte swap of one chunk, `iByte` running from `i`, `n` iterations left. -/
def swapLoop (chunkSize : Nat) : (n i : Nat) → List β → Res (List β)
  | 0, _, l => .ok l
  | n+1, i, l => do
    let l' ← swapAt l i (chunkSize - 1 - i)
    swapLoop chunkSize n (i+1) l'

/-- Util.cpp:571-576: loop over chunks; `bytes += chunkSize` is modelled by working on the rest of the
list. -/
def chunkLoop (chunkSize : Nat) : (nChunks : Nat) → List β → Res (List β)
  | 0, l => .ok l
  | n+1, l => do
    let c ← swapLoop chunkSize (chunkSize/2) 0 (l.take chunkSize)
    let rest ← chunkLoop chunkSize n (l.drop chunkSize)
    return c ++ rest

/-- Util.cpp:547-578 `convertToLE`. -/
def convertToLE (isLE : Bool) (size nmemb : Nat) (bytes : List β) : Res (List β) :=
  if isLE || size == 1 then .ok bytes
  else if size == 2 || size == 4 || size == 8 then chunkLoop size nmemb bytes
  else if size % 8 == 0 then chunkLoop 8 (nmemb * (size/8)) bytes
  else .error .die

/-- Util.cpp:581-583 `convertFromLE`. -/
def convertFromLE (isLE : Bool) (size nmemb : Nat) (bytes : List β) : Res (List β) :=
  convertToLE isLE size nmemb bytes

/-- Util.cpp:593-598 `fwriteLE` (system `fwrite` assumed to write everything): bytes appended to the file
and the buffer afterwards. -/
def fwriteLE (isLE : Bool) (size nmemb : Nat) (buf : List β) : Res (List β × List β) := do
  let b1 ← convertToLE isLE size nmemb buf
  let written := b1.take (size * nmemb)
  let b2 ← convertFromLE isLE size nmemb b1
  return (written, b2)

/-- Util.cpp:586-590 `freadLE` on a file that still holds `file` (of at least `size*nmemb` bytes, else the
caller reports an error: `.die`): the buffer read. -/
def freadLE (isLE : Bool) (size nmemb : Nat) (file : List β) : Res (List β) :=
  if file.length < size * nmemb then .error .die
  else convertFromLE isLE size nmemb (file.take (size * nmemb))

/-- `INT_MAX` of the platform's 32-bit `int`. -/
def INT_MAX : Nat := 2147483647

/-- jdftx/core/scalar.h:52 `ceildiv` (the caller guarantees `den ≠ 0`). -/
def ceildiv (num den : Nat) : Nat := (num + den - 1) / den

/-- MPIUtil.cpp:329 / 350 `blockSize = size_t(INT_MAX)/(2*size)`; division by zero traps. -/
def blockSize (size : Nat) : Res Nat :=
  if 2 * size = 0 then .error .ub else .ok (INT_MAX / (2*size))

/-- MPIUtil.cpp:331-334 / 352-355: `(offset, length)` of block `iBlock`. -/
def blockRange (nmemb bs iBlock : Nat) : Nat × Nat :=
  let offset := iBlock * bs
  (offset, min nmemb ((iBlock+1)*bs) - offset)

/-- MPIUtil.cpp:352-361: writing, blocks `iBlock ..` with `n` blocks left. Returns the byte strings passed to
the single `MPI_File_write` calls (each also with its length argument `length*size`) and the buffer. -/
def fwriteLoop (isLE : Bool) (size nmemb bs : Nat) : (n iBlock : Nat) → List β → Res (List (List β) × List β)
  | 0, _, buf => .ok ([], buf)
  | n+1, iBlock, buf => do
    let (offset, length) := blockRange nmemb bs iBlock
    -- `ptrOffset = ptr + offset*size`; the block is the next `length*size` bytes
    let pre := buf.take (offset*size)
    let blk := (buf.drop (offset*size)).take (length*size)
    let post := (buf.drop (offset*size)).drop (length*size)
    let conv ← convertToLE isLE size length blk
    let back ← convertFromLE isLE size length conv
    let (outs, buf') ← fwriteLoop isLE size nmemb bs n (iBlock+1) (pre ++ back ++ post)
    return (conv :: outs, buf')

/-- MPIUtil.cpp:347-367 `MPIUtil::fwrite` (MPI branch). -/
def fwriteMPI (isLE : Bool) (size nmemb : Nat) (buf : List β) : Res (List (List β) × List β) := do
  let bs ← blockSize size
  if bs = 0 then .error .ub else -- division by zero inside ceildiv
  fwriteLoop isLE size nmemb bs (ceildiv nmemb bs) 0 buf

/-- MPIUtil.cpp:331-339: reading; `file` is what follows the file pointer. A short read dies. -/
def freadLoop (isLE : Bool) (size nmemb bs : Nat) : (n iBlock : Nat) → (file buf : List β) → Res (List β)
  | 0, _, _, buf => .ok buf
  | n+1, iBlock, file, buf => do
    let (offset, length) := blockRange nmemb bs iBlock
    let got := file.take (length*size)
    if got.length ≠ length*size then .error .die else
    let conv ← convertFromLE isLE size length got
    let pre := buf.take (offset*size)
    let post := (buf.drop (offset*size)).drop (length*size)
    freadLoop isLE size nmemb bs n (iBlock+1) (file.drop (length*size)) (pre ++ conv ++ post)

/-- MPIUtil.cpp:326-345 `MPIUtil::fread` (MPI branch) into the buffer `buf`. -/
def freadMPI (isLE : Bool) (size nmemb : Nat) (file buf : List β) : Res (List β) := do
  let bs ← blockSize size
  if bs = 0 then .error .ub else
  freadLoop isLE size nmemb bs (ceildiv nmemb bs) 0 file buf

end Jdftx.FileIO
