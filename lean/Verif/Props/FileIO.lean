import Verif.Lemmas.FileIO

/-!
# C48 (endian independence) and C06 (chunked transfers)

`Spec.leBytes isLE (wordSize size) mem` is the little-endian serialisation of the values that memory `mem`
holds on a machine with endianness `isLE`; two machines hold the same values iff these agree.
-/
namespace Jdftx.FileIO
open Jdftx.Spec
variable {β : Type}

/-- What `fwriteLE` puts into the file is the little-endian form of the values in the buffer, on either
kind of machine, and the caller's buffer is unchanged. -/
theorem C48_write (isLE : Bool) (size nmemb : Nat) (hs : Supported size) (buf : List β)
    (hl : buf.length = size * nmemb) :
    fwriteLE isLE size nmemb buf = .ok (leBytes isLE (wordSize size) buf, buf) := by
  obtain ⟨n, hn⟩ := size_mul_word hs nmemb
  have hw := wordSize_pos size
  have hlen := leBytes_length isLE (wordSize size) hw n buf (hl.trans hn)
  unfold fwriteLE convertFromLE
  rw [convertToLE_eq isLE size nmemb hs buf hl]
  simp only [bind_ok]
  rw [convertToLE_eq isLE size nmemb hs _ (hlen.trans hl), leBytes_invol isLE _ hw n buf (hl.trans hn)]
  simp only [bind_ok]
  rw [List.take_of_length_le (by omega)]
  rfl

/-- Writing on a machine of one endianness and reading on a machine of the same or the other endianness
gives a buffer that holds the same values there, whatever follows in the file. -/
theorem C48_transfer (isLEw isLEr : Bool) (size nmemb : Nat) (hs : Supported size) (buf : List β)
    (hl : buf.length = size * nmemb) :
    ∃ file buf', fwriteLE isLEw size nmemb buf = .ok (file, buf) ∧
      (∀ rest, freadLE isLEr size nmemb (file ++ rest) = .ok buf') ∧
      leBytes isLEr (wordSize size) buf' = leBytes isLEw (wordSize size) buf := by
  obtain ⟨n, hn⟩ := size_mul_word hs nmemb
  have hw := wordSize_pos size
  have hlen := leBytes_length isLEw (wordSize size) hw n buf (hl.trans hn)
  refine ⟨_, leBytes isLEr (wordSize size) (leBytes isLEw (wordSize size) buf), C48_write isLEw size nmemb hs buf hl, ?_, ?_⟩
  · intro rest
    unfold freadLE convertFromLE
    rw [if_neg (by rw [List.length_append]; omega), List.take_left' (hlen.trans hl)]
    exact convertToLE_eq isLEr size nmemb hs _ (hlen.trans hl)
  · exact leBytes_invol isLEr _ hw n _ (hlen.trans (hl.trans hn))

/-- In particular on equal machines the buffer itself comes back. -/
theorem C48_roundtrip (isLE : Bool) (size nmemb : Nat) (hs : Supported size) (buf : List β)
    (hl : buf.length = size * nmemb) :
    ∃ file, fwriteLE isLE size nmemb buf = .ok (file, buf) ∧ freadLE isLE size nmemb file = .ok buf := by
  obtain ⟨n, hn⟩ := size_mul_word hs nmemb
  have hw := wordSize_pos size
  have hlen := leBytes_length isLE (wordSize size) hw n buf (hl.trans hn)
  refine ⟨_, C48_write isLE size nmemb hs buf hl, ?_⟩
  unfold freadLE convertFromLE
  rw [if_neg (by omega), List.take_of_length_le (by omega), convertToLE_eq isLE size nmemb hs _ (hlen.trans hl),
    leBytes_invol isLE _ hw n buf (hl.trans hn)]

/-- A file that is too short is reported. -/
theorem C48_short (isLE : Bool) (size nmemb : Nat) (file : List β) (h : file.length < size * nmemb) :
    freadLE isLE size nmemb file = .error .die := by
  unfold freadLE; rw [if_pos h]

-- Spec and hypotheses on a concrete case: two 2-byte items on a big-endian machine.
example : fwriteLE false 2 2 [1,2,3,4] = .ok ([2,1,4,3], [1,2,3,4]) := by rfl
example : Supported 16 ∧ ([0,1,2,3,4,5,6,7,8,9,10,11,12,13,14,15] : List Nat).length = 16 * 1 := by
  refine ⟨?_, rfl⟩; unfold Supported; omega

/-! ## C06 -/

theorem blockLen (nmemb bs i : Nat) (hi : i * bs ≤ nmemb) :
    (blockRange nmemb bs i).1 = i * bs ∧
    i * bs + (blockRange nmemb bs i).2 = min nmemb ((i+1)*bs) ∧ (blockRange nmemb bs i).2 ≤ bs := by
  have : (i+1)*bs = i*bs + bs := Nat.succ_mul i bs
  simp only [blockRange]
  generalize (i+1)*bs = x at *
  generalize i*bs = y at *
  refine ⟨trivial, ?_, ?_⟩ <;> omega

theorem lt_ceildiv {nmemb bs i : Nat} (hbs : 0 < bs) (h : i < ceildiv nmemb bs) : i * bs < nmemb := by
  unfold ceildiv at h
  have h2 := (Nat.le_div_iff_mul_le hbs).mp (Nat.succ_le_of_lt h)
  rw [Nat.succ_mul] at h2
  omega

theorem ceildiv_mul_ge (nmemb bs : Nat) (hbs : 0 < bs) : nmemb ≤ ceildiv nmemb bs * bs := by
  unfold ceildiv
  have := Nat.div_add_mod (nmemb + bs - 1) bs
  have h2 := Nat.mod_lt (nmemb + bs - 1) hbs
  rw [Nat.mul_comm] at this
  omega

theorem fwriteLoop_spec (isLE : Bool) (size nmemb bs : Nat) (hs : Supported size) (hbs : 0 < bs)
    (buf : List β) (hl : buf.length = size * nmemb) :
    ∀ n i, i + n = ceildiv nmemb bs →
    ∃ outs, fwriteLoop isLE size nmemb bs n i buf = .ok (outs, buf) ∧
      outs.flatten = leBytes isLE (wordSize size) (buf.drop (i*bs*size)) ∧
      (∀ o ∈ outs, o.length ≤ bs * size) := by
  have hw := wordSize_pos size
  intro n
  induction n with
  | zero =>
    intro i hi
    refine ⟨[], rfl, ?_, by simp⟩
    have hge := ceildiv_mul_ge nmemb bs hbs
    rw [← hi] at hge
    have : buf.length ≤ i * bs * size := by
      rw [hl, Nat.mul_comm size]; exact Nat.mul_le_mul_right _ hge
    rw [List.drop_of_length_le this, leBytes_nil]; rfl
  | succ n ih =>
    intro i hi
    have hlt : i * bs < nmemb := lt_ceildiv hbs (by omega)
    obtain ⟨hb1, hb2, hb3⟩ := blockLen nmemb bs i (Nat.le_of_lt hlt)
    obtain ⟨off, L, hr⟩ : ∃ off L, blockRange nmemb bs i = (off, L) := ⟨_, _, rfl⟩
    rw [hr] at hb1 hb2 hb3
    simp only at hb1 hb2 hb3
    subst hb1
    have hLle : i*bs + L ≤ nmemb := by omega
    have hLs : i*bs*size + L*size ≤ buf.length := by
      rw [← Nat.add_mul, hl, Nat.mul_comm size]; exact Nat.mul_le_mul_right _ hLle
    have hblk : ((buf.drop (i*bs*size)).take (L*size)).length = size * L := by
      rw [List.length_take, List.length_drop, Nat.mul_comm size]; omega
    obtain ⟨m, hm⟩ := size_mul_word hs L
    have hclen := leBytes_length isLE (wordSize size) hw m _ (hblk.trans hm)
    have hback : buf.take (i*bs*size) ++ (buf.drop (i*bs*size)).take (L*size) ++ (buf.drop (i*bs*size)).drop (L*size) = buf := by
      rw [List.append_assoc, List.take_append_drop, List.take_append_drop]
    obtain ⟨outs, h1, h2, h3⟩ := ih (i+1) (by omega)
    refine ⟨leBytes isLE (wordSize size) ((buf.drop (i*bs*size)).take (L*size)) :: outs, ?_, ?_, ?_⟩
    · unfold fwriteLoop
      simp only [hr]
      unfold convertFromLE
      rw [convertToLE_eq isLE size L hs _ hblk]
      simp only [bind_ok]
      rw [convertToLE_eq isLE size L hs _ (hclen.trans hblk), leBytes_invol isLE _ hw m _ (hblk.trans hm)]
      simp only [bind_ok]
      rw [hback, h1]
      rfl
    · rw [List.flatten_cons, h2, ← leBytes_append isLE _ hw m _ _ (hblk.trans hm)]
      congr 1
      have hd : buf.drop ((i+1)*bs*size) = (buf.drop (i*bs*size)).drop (L*size) := by
        rw [List.drop_drop]
        by_cases hle : (i+1)*bs ≤ nmemb
        · have : (i+1)*bs = i*bs + L := by omega
          rw [this, Nat.add_mul]
        · have e1 : nmemb = i*bs + L := by omega
          rw [List.drop_of_length_le, List.drop_of_length_le]
          · rw [hl, ← Nat.add_mul, ← e1, Nat.mul_comm]; omega
          · rw [hl, Nat.mul_comm size]; exact Nat.mul_le_mul_right _ (by omega)
      rw [hd, List.take_append_drop]
    · intro o ho
      rcases List.mem_cons.mp ho with rfl | ho
      · rw [hclen, hblk, Nat.mul_comm]; exact Nat.mul_le_mul_right _ hb3
      · exact h3 o ho

theorem freadLoop_spec (isLE : Bool) (size nmemb bs : Nat) (hs : Supported size) (hbs : 0 < bs) :
    ∀ n i (file buf : List β), i + n = ceildiv nmemb bs → buf.length = size * nmemb →
      file.length = size * nmemb - i*bs*size →
      freadLoop isLE size nmemb bs n i file buf =
        .ok (buf.take (i*bs*size) ++ leBytes isLE (wordSize size) file) := by
  have hw := wordSize_pos size
  intro n
  induction n with
  | zero =>
    intro i file buf hi hl hf
    have hge := ceildiv_mul_ge nmemb bs hbs
    rw [← hi] at hge
    have : buf.length ≤ i * bs * size := by
      rw [hl, Nat.mul_comm size]; exact Nat.mul_le_mul_right _ hge
    have hf0 : file = [] := List.length_eq_zero_iff.mp (by omega)
    rw [hf0, leBytes_nil, List.take_of_length_le this]
    simp [freadLoop]
  | succ n ih =>
    intro i file buf hi hl hf
    have hlt : i * bs < nmemb := lt_ceildiv hbs (by omega)
    obtain ⟨hb1, hb2, hb3⟩ := blockLen nmemb bs i (Nat.le_of_lt hlt)
    obtain ⟨off, L, hr⟩ : ∃ off L, blockRange nmemb bs i = (off, L) := ⟨_, _, rfl⟩
    rw [hr] at hb1 hb2 hb3
    simp only at hb1 hb2 hb3
    subst hb1
    have hLle : i*bs + L ≤ nmemb := by omega
    have hLs : i*bs*size + L*size ≤ size * nmemb := by
      rw [← Nat.add_mul, Nat.mul_comm size]; exact Nat.mul_le_mul_right _ hLle
    have hgot : (file.take (L*size)).length = size * L := by
      rw [List.length_take, Nat.mul_comm size]; omega
    obtain ⟨m, hm⟩ := size_mul_word hs L
    have hclen := leBytes_length isLE (wordSize size) hw m _ (hgot.trans hm)
    unfold freadLoop
    simp only [hr]
    rw [if_neg (by rw [hgot, Nat.mul_comm]; simp)]
    unfold convertFromLE
    rw [convertToLE_eq isLE size L hs _ hgot]
    simp only [bind_ok]
    have hpre : (buf.take (i*bs*size)).length = i*bs*size := by rw [List.length_take]; omega
    have hnext : (i+1)*bs ≤ nmemb → (i+1)*bs*size = i*bs*size + L*size := by
      intro hle
      have : (i+1)*bs = i*bs + L := by omega
      rw [this, Nat.add_mul]
    have hlast : ¬ (i+1)*bs ≤ nmemb → i*bs*size + L*size = size*nmemb ∧ size*nmemb ≤ (i+1)*bs*size := by
      intro hle
      have : nmemb = i*bs + L := by omega
      constructor
      · rw [← Nat.add_mul, ← this, Nat.mul_comm]
      · rw [Nat.mul_comm size]; exact Nat.mul_le_mul_right _ (by omega)
    rw [ih (i+1) (file.drop (L*size)) _ (by omega)]
    · congr 1
      have h2 : (buf.take (i*bs*size) ++ leBytes isLE (wordSize size) (file.take (L*size)) ++
          (buf.drop (i*bs*size)).drop (L*size)).take ((i+1)*bs*size) =
          buf.take (i*bs*size) ++ leBytes isLE (wordSize size) (file.take (L*size)) := by
        have hl1 : (buf.take (i*bs*size) ++ leBytes isLE (wordSize size) (file.take (L*size))).length = i*bs*size + L*size := by
          rw [List.length_append, hpre, hclen, hgot, Nat.mul_comm size]
        by_cases hle : (i+1)*bs ≤ nmemb
        · rw [hnext hle, ← hl1, List.take_left']
          rfl
        · obtain ⟨e1, e2⟩ := hlast hle
          rw [List.drop_drop, e1, List.drop_of_length_le (by omega), List.append_nil]
          exact List.take_of_length_le (by omega)
      rw [h2, List.append_assoc, ← leBytes_append isLE _ hw m _ _ (hgot.trans hm), List.take_append_drop]
    · simp only [List.length_append, hpre, hclen, hgot, List.length_drop]
      rw [Nat.mul_comm size L]; omega
    · rw [List.length_drop]
      by_cases hle : (i+1)*bs ≤ nmemb
      · rw [hnext hle]; omega
      · obtain ⟨e1, e2⟩ := hlast hle; omega

theorem blockSize_ok {size : Nat} (h0 : 0 < size) (h1 : 2 * size ≤ INT_MAX) :
    blockSize size = .ok (INT_MAX / (2*size)) ∧ 0 < INT_MAX / (2*size) ∧
      INT_MAX / (2*size) * size ≤ INT_MAX / 2 := by
  refine ⟨by unfold blockSize; rw [if_neg (by omega)], Nat.div_pos h1 (by omega), ?_⟩
  rw [Nat.le_div_iff_mul_le (by omega)]
  calc INT_MAX / (2*size) * size * 2 = INT_MAX / (2*size) * (2*size) := by
        rw [Nat.mul_assoc, Nat.mul_comm size 2]
    _ ≤ INT_MAX := Nat.div_mul_le_self _ _

/-- Chunked writing: the pieces handed to the message library are, one after the other, exactly the
little-endian bytes of the buffer; each piece is within the transfer limit; the buffer is unchanged. -/
theorem C06_write (isLE : Bool) (size nmemb : Nat) (hs : Supported size) (hmax : 2 * size ≤ INT_MAX)
    (buf : List β) (hl : buf.length = size * nmemb) :
    ∃ pieces, fwriteMPI isLE size nmemb buf = .ok (pieces, buf) ∧
      pieces.flatten = leBytes isLE (wordSize size) buf ∧
      ∀ p ∈ pieces, p.length ≤ INT_MAX / 2 := by
  obtain ⟨hb, hpos, hle⟩ := blockSize_ok (supported_pos hs) hmax
  obtain ⟨outs, h1, h2, h3⟩ := fwriteLoop_spec isLE size nmemb _ hs hpos buf hl (ceildiv nmemb (INT_MAX / (2*size))) 0 (by omega)
  refine ⟨outs, ?_, ?_, fun p hp => Nat.le_trans (h3 p hp) hle⟩
  · unfold fwriteMPI
    rw [hb]
    simp only [bind_ok]
    rw [if_neg (by omega)]
    exact h1
  · simpa using h2

/-- Chunked reading fills the whole buffer with the values in the file. -/
theorem C06_read (isLE : Bool) (size nmemb : Nat) (hs : Supported size) (hmax : 2 * size ≤ INT_MAX)
    (file buf : List β) (hl : buf.length = size * nmemb) (hf : file.length = size * nmemb) :
    freadMPI isLE size nmemb file buf = .ok (leBytes isLE (wordSize size) file) := by
  obtain ⟨hb, hpos, hle⟩ := blockSize_ok (supported_pos hs) hmax
  have h1 := freadLoop_spec isLE size nmemb _ hs hpos (ceildiv nmemb (INT_MAX / (2*size))) 0 file buf (by omega) hl (by simpa using hf)
  unfold freadMPI
  rw [hb]
  simp only [bind_ok]
  rw [if_neg (by omega), h1]
  simp

/-- Data written in chunks by one machine and read in chunks by another have the same values. -/
theorem C06_roundtrip (isLEw isLEr : Bool) (size nmemb : Nat) (hs : Supported size)
    (hmax : 2 * size ≤ INT_MAX) (buf other : List β) (hl : buf.length = size * nmemb)
    (hl' : other.length = size * nmemb) :
    ∃ pieces buf', fwriteMPI isLEw size nmemb buf = .ok (pieces, buf) ∧
      freadMPI isLEr size nmemb pieces.flatten other = .ok buf' ∧
      leBytes isLEr (wordSize size) buf' = leBytes isLEw (wordSize size) buf := by
  obtain ⟨n, hn⟩ := size_mul_word hs nmemb
  have hw := wordSize_pos size
  have hlen := leBytes_length isLEw (wordSize size) hw n buf (hl.trans hn)
  obtain ⟨pieces, h1, h2, _⟩ := C06_write isLEw size nmemb hs hmax buf hl
  refine ⟨pieces, _, h1, C06_read isLEr size nmemb hs hmax _ other hl' (by rw [h2, hlen, hl]), ?_⟩
  rw [h2]
  exact leBytes_invol isLEr _ hw n _ (hlen.trans (hl.trans hn))

/-- Items larger than the limit (or of size zero) make the block size zero: division by zero. -/
theorem C06_oversized_item (isLE : Bool) (size nmemb : Nat) (buf : List β)
    (h : size = 0 ∨ INT_MAX < 2 * size) : fwriteMPI isLE size nmemb buf = .error .ub := by
  unfold fwriteMPI blockSize
  by_cases h0 : 2 * size = 0
  · rw [if_pos h0]; rfl
  · rw [if_neg h0]
    simp only [bind_ok]
    rw [if_pos (Nat.div_eq_of_lt (by omega))]

example : Supported 16 ∧ 2 * 16 ≤ INT_MAX := by
  refine ⟨?_, by decide⟩; unfold Supported; omega
-- a block structure with three blocks (block size 4, ten items)
example : (List.range (ceildiv 10 4)).map (blockRange 10 4) = [(0,4),(4,4),(8,2)] := by decide

end Jdftx.FileIO
