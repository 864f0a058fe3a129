import Verif.Lemmas.ColBundle
/-!
# C115: wavefunctions read from a file keep their coefficients when the number of bands or the basis changes

`Coefficient` (`Spec/ColBundle.lean`) says which number belongs to a band, component and plane wave.
-/
namespace Jdftx.Cols

variable {α : Type} [AddCommMonoid α] {K : Type} [DecidableEq K] [Zero K]

/-- The plane waves in the file: those of the other cutoff if one is given, else those of the calculation. -/
def fileBasis (Y : Bundle α) (c : Option (Conversion K)) (old : BasisOf) : BasisOf :=
  if customBasis c then old else ⟨Y.nbasis, Y.index⟩

/-- `C115_read` in terms of the model's own number of bands and basis. -/
theorem readState_spec (Y : Bundle α) (c : Option (Conversion K)) (old : BasisOf) (content junk : ℕ → α)
    (hY : Distinct Y.nbasis Y.index) (ho : Distinct old.nbasis old.index) (hn : 0 < Y.nCols) :
    ∃ d, readState Y c old content junk = .ok { Y with data := d } ∧
      ∀ b < Y.nCols, ∀ s < Y.nSpinor, ∀ j < Y.nbasis,
        (b < fileCols Y c → Coefficient (fileBasis Y c old).nbasis Y.nSpinor (fileBasis Y c old).index content b s (Y.index j)
          (d ((b * Y.nSpinor + s) * Y.nbasis + j))) ∧
        (fileCols Y c ≤ b → d ((b * Y.nSpinor + s) * Y.nbasis + j) = Y.data ((b * Y.nSpinor + s) * Y.nbasis + j)) := by
  have own : ∀ (b s j : ℕ), j < Y.nbasis → ∀ v, v = content ((b * Y.nSpinor + s) * Y.nbasis + j) →
      Coefficient Y.nbasis Y.nSpinor Y.index content b s (Y.index j) v := by
    intro b s j hj v hv
    refine ⟨?_, fun h => absurd rfl (h j hj)⟩
    intro k hk he
    rw [hY k hk j hj he, hv]
  unfold readState
  by_cases hc : customBasis c = true
  · have ht : needTmp Y c = true := by simp [needTmp, hc]
    rw [if_pos ht, if_pos hc]
    obtain ⟨d, h1, h2⟩ := convert_spec ⟨fileCols Y c, old.nbasis, Y.nSpinor, old.index, content⟩ Y ho rfl
      (pairs (min Y.nCols (fileCols Y c)) Y.nSpinor) (by
        intro p hp
        have := (mem_pairs _ _ p.1 p.2).mp hp
        exact ⟨by omega, by show p.1 < fileCols Y c; omega, this.2⟩)
    refine ⟨d, h1, ?_⟩
    intro b hb s hs j hj
    have h3 := h2 b s j hs hj
    constructor
    · intro hf
      have := h3.1 ((mem_pairs _ _ _ _).mpr ⟨by omega, hs⟩)
      simpa [fileBasis, hc] using this
    · intro hf
      exact h3.2 fun hm => by have := ((mem_pairs _ _ _ _).mp hm).1; omega
  · have hfb : fileBasis Y c old = ⟨Y.nbasis, Y.index⟩ := by simp [fileBasis, hc]
    rw [hfb]
    by_cases ht : needTmp Y c = true
    · rw [if_pos ht, if_neg hc]
      simp only
      by_cases hl : fileCols Y c < Y.nCols
      · rw [if_pos hl, Bundle.setSub, if_pos ⟨hn, rfl⟩]
        refine ⟨_, rfl, ?_⟩
        intro b hb s hs j hj
        have hmin : min (fileCols Y c) Y.nCols = fileCols Y c := by omega
        simp only [copyTo, hmin, zero_mul, zero_le, true_and, zero_add, Nat.sub_zero]
        constructor
        · intro hf
          apply own b s j hj
          exact if_pos (place_lt hf hs hj)
        · intro hf
          rw [if_neg]
          rw [not_lt]
          unfold Bundle.colLength
          calc fileCols Y c * (Y.nbasis * Y.nSpinor) ≤ b * (Y.nbasis * Y.nSpinor) := Nat.mul_le_mul_right _ hf
            _ = b * Y.nSpinor * Y.nbasis := by ring
            _ ≤ (b * Y.nSpinor + s) * Y.nbasis + j := by nlinarith
      · rw [if_neg hl, Bundle.getSub, if_pos ⟨by show Y.nCols ≤ fileCols Y c; omega, hn⟩]
        refine ⟨_, rfl, ?_⟩
        intro b hb s hs j hj
        refine ⟨fun hf => ?_, fun hf => by omega⟩
        apply own b s j hj
        simp only [copyTo, zero_mul, zero_le, true_and, zero_add, Nat.sub_zero]
        exact if_pos (place_lt hb hs hj)
    · rw [if_neg ht]
      refine ⟨content, rfl, ?_⟩
      intro b hb s hs j hj
      have he : fileCols Y c = Y.nCols := by
        by_contra hne
        exact ht (by simp [needTmp, hne])
      exact ⟨fun _ => own b s j hj _ rfl, fun hf => by omega⟩

/-- Reading succeeds for every change of the number of bands and of the cutoff. The coefficient of each plane wave of each
band that is in the file is the one in the file, or zero if the file does not have that plane wave; bands that are not in
the file are as before. The number of bands and the basis are those of the calculation. -/
theorem C115_read (Y : Bundle α) (c : Option (Conversion K)) (old : BasisOf) (content junk : ℕ → α)
    (hY : Distinct Y.nbasis Y.index) (ho : Distinct old.nbasis old.index) (hn : 0 < Y.nCols) :
    ∃ d, readState Y c old content junk = .ok { Y with data := d } ∧
      ∀ b < Y.nCols, ∀ s < Y.nSpinor, ∀ j < Y.nbasis,
        (b < bandsInFile Y.nCols c → Coefficient (basisInFile ⟨Y.nbasis, Y.index⟩ old c).nbasis Y.nSpinor
          (basisInFile ⟨Y.nbasis, Y.index⟩ old c).index content b s (Y.index j) (d ((b * Y.nSpinor + s) * Y.nbasis + j))) ∧
        (bandsInFile Y.nCols c ≤ b → d ((b * Y.nSpinor + s) * Y.nbasis + j) = Y.data ((b * Y.nSpinor + s) * Y.nbasis + j)) := by
  have h1 : bandsInFile Y.nCols c = fileCols Y c := by
    cases c with
    | none => rfl
    | some c =>
      simp only [bandsInFile, fileCols]
      split_ifs with a b b <;> omega
  have h2 : basisInFile ⟨Y.nbasis, Y.index⟩ old c = fileBasis Y c old := by
    cases c with
    | none => rfl
    | some c =>
      simp only [basisInFile, fileBasis, customBasis]
      by_cases a : c.EcutOld = 0
      · simp [a]
      · by_cases b : c.EcutOld = c.Ecut
        · simp [b]
        · simp [a, b]
  rw [h1, h2]
  exact readState_spec Y c old content junk hY ho hn

/-- A column taken from a set of bands has each plane wave at its position and zero elsewhere. -/
theorem C115_get (B : Bundle α) (hd : Distinct B.nbasis B.index) (b s : ℕ) (hb : b < B.nCols) (hs : s < B.nSpinor) :
    ∃ full, B.getColumn b s = .ok full ∧ ∀ g, Coefficient B.nbasis B.nSpinor B.index B.data b s g (full g) :=
  getColumn_coefficient B hd hb hs

/-- Setting a column to one taken from a set with the same basis copies it, and changes nothing else. -/
theorem C115_set_get (B C : Bundle α) (hd : Distinct B.nbasis B.index) (hi : C.index = B.index) (hnb : C.nbasis = B.nbasis)
    (b s b' s' : ℕ) (hb : b < B.nCols) (hs : s < B.nSpinor) (hb' : b' < C.nCols) (hs' : s' < C.nSpinor) :
    ∃ full d, B.getColumn b s = .ok full ∧ C.setColumn b' s' full = .ok { C with data := d } ∧
      ∀ i t j, t < C.nSpinor → j < C.nbasis → d ((i * C.nSpinor + t) * C.nbasis + j) =
        if i = b' ∧ t = s' then B.data ((b * B.nSpinor + s) * B.nbasis + j) else C.data ((i * C.nSpinor + t) * C.nbasis + j) := by
  obtain ⟨full, g1, g2⟩ := getColumn_coefficient B hd hb hs
  obtain ⟨d, s1, s2⟩ := setColumn_spec C hb' hs' full
  refine ⟨full, d, g1, s1, ?_⟩
  intro i t j ht hj
  rw [s2]
  by_cases h : i = b' ∧ t = s'
  · obtain ⟨rfl, rfl⟩ := h
    rw [if_pos (by omega), if_pos ⟨rfl, rfl⟩, Nat.add_sub_cancel_left, hi]
    exact (g2 (B.index j)).1 j (by omega) rfl
  · rw [if_neg h, if_neg]
    rintro ⟨ha, hb2⟩
    obtain ⟨j', hj'⟩ := Nat.exists_eq_add_of_le ha
    have := place_inj ht hs' hj (j' := j') (by omega) hj'
    exact h ⟨this.1, this.2.1⟩

omit [AddCommMonoid α] in
/-- Taking some columns and putting them back at any place that has room copies them, and changes nothing else. -/
theorem C115_sub (B C : Bundle α) (junk : ℕ → α) (m n k : ℕ) (hmn : m < n) (hn : n ≤ B.nCols)
    (hl : C.colLength = B.colLength) (hk : k + (n - m) ≤ C.nCols) :
    ∃ S d, B.getSub m n junk = .ok S ∧ S.nCols = n - m ∧ C.setSub k S = .ok { C with data := d } ∧
      ∀ i t, t < C.colLength → d (i * C.colLength + t) =
        if k ≤ i ∧ i < k + (n - m) then B.data ((m + (i - k)) * B.colLength + t) else C.data (i * C.colLength + t) := by
  refine ⟨_, _, by rw [Bundle.getSub, if_pos ⟨hn, hmn⟩], rfl, by rw [Bundle.setSub, if_pos ⟨by omega, hl⟩], ?_⟩
  intro i t ht
  have hmin : min (n - m) (C.nCols - k) = n - m := by omega
  simp only [copyTo, hmin, zero_le, true_and, zero_add, Nat.sub_zero]
  by_cases h : k ≤ i ∧ i < k + (n - m)
  · obtain ⟨e, rfl⟩ := Nat.exists_eq_add_of_le h.1
    have he : e < n - m := by omega
    have h1 : (k + e) * C.colLength + t - k * C.colLength = e * C.colLength + t := by
      rw [add_mul, add_assoc, Nat.add_sub_cancel_left]
    have h2 : e * C.colLength + t < (n - m) * C.colLength := by nlinarith
    rw [if_pos h, if_pos, h1, hl, if_pos (by rw [← hl]; exact h2), Nat.add_sub_cancel_left, add_mul, add_assoc]
    constructor
    · nlinarith
    · rw [add_mul]; omega
  · rw [if_neg h, if_neg]
    rintro ⟨ha, hb⟩
    apply h
    constructor
    · by_contra hlt
      have : i + 1 ≤ k := by omega
      nlinarith
    · by_contra hge
      have : k + (n - m) ≤ i := by omega
      nlinarith

omit [AddCommMonoid α] in
/-- All positions that belong to bands, components and plane waves are within the allocation, and different ones are at
different positions. -/
theorem C115_range (B : Bundle α) (b s j : ℕ) (hb : b < B.nCols) (hs : s < B.nSpinor) (hj : j < B.nbasis) :
    B.at b (s * B.nbasis) + j < B.nCols * B.colLength ∧
    ∀ b' s' j', s' < B.nSpinor → j' < B.nbasis → B.at b (s * B.nbasis) + j = B.at b' (s' * B.nbasis) + j' →
      b = b' ∧ s = s' ∧ j = j' := by
  simp only [Bundle.at, Bundle.colLength, place_eq]
  exact ⟨place_lt hb hs hj, fun b' s' j' hs' hj' h => place_inj hs hs' hj hj' h⟩

/-! ## Examples -/

/-- Two bands with three plane waves; the file has three bands with two plane waves, at positions 4 and 7. -/
def exY : Bundle ℤ := ⟨2, 3, 1, fun j => [0, 4, 9].getD j 0, fun _ => 100⟩

def exOld : BasisOf := ⟨2, fun j => [4, 7].getD j 0⟩

def exConv : Option (Conversion ℤ) := some ⟨3, 20, 15⟩

example : Distinct exY.nbasis exY.index ∧ Distinct exOld.nbasis exOld.index ∧ 0 < exY.nCols := by
  unfold Distinct; decide +kernel

/-- The coefficients at position 4 are found, others are zero. -/
example : (match readState exY exConv exOld (fun t => (t : ℤ) + 1) (fun _ => 0) with
    | .ok B => (List.range 6).map B.data
    | .error _ => []) = [0, 1, 0, 0, 3, 0] := by decide +kernel

/-- The file has one band in the same basis: the second band is as before. -/
example : (match readState exY (some (⟨1, 20, 20⟩ : Conversion ℤ)) exOld (fun t => (t : ℤ) + 1) (fun _ => 0) with
    | .ok B => (List.range 6).map B.data
    | .error _ => []) = [1, 2, 3, 100, 100, 100] := by decide +kernel

end Jdftx.Cols
