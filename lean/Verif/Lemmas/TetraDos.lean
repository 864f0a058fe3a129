import Verif.Spec.TetraDos
import Verif.Lemmas.Res
import Mathlib.Tactic.Ring
import Mathlib.Tactic.FieldSimp
import Mathlib.Tactic.Linarith
import Mathlib.Tactic.NormNum
import Mathlib.Tactic.LinearCombination
import Mathlib.Data.List.Sort

/-! # Lemmas for the tetrahedron density of states: single tetrahedra -/
set_option linter.unusedSectionVars false

namespace Jdftx.Tetra

section
variable {K : Type} [Field K] [LinearOrder K]

theorem ivLt_iff (a b : K × K) : ivLt a b = true ↔ a.1 < b.1 ∨ (a.1 = b.1 ∧ a.2 < b.2) := by
  unfold ivLt
  split
  · rename_i h; simp [h]
  · rename_i h; push Not at h; simp [h]

theorem ivLt_total (a b : K × K) (h1 : ivLt a b ≠ true) (h2 : ivLt b a ≠ true) : a = b := by
  rw [Ne, ivLt_iff] at h1 h2
  push Not at h1 h2
  have e : a.1 = b.1 := le_antisymm h2.1 h1.1
  exact Prod.ext e (le_antisymm (h2.2 e.symm) (h1.2 e))

/-- Additive functions of a map. -/
theorem mapAdd_sum (g : K × K → Bez K → K) (hz : ∀ k, g k Bez.zero = 0) (ha : ∀ k x y, g k (x.add y) = g k x + g k y) (k : K × K) (d : Bez K) (m : List ((K × K) × Bez K)) :
    ((mapAdd k d m).map fun p => g p.1 p.2).sum = (m.map fun p => g p.1 p.2).sum + g k d := by
  induction m with
  | nil => simp [mapAdd, hz, ha]
  | cons p m ih =>
    unfold mapAdd
    split
    · simp [hz, ha]; ring
    · rename_i h1
      split
      · simp only [List.map_cons, List.sum_cons, ih]; ring
      · rename_i h2
        have := ivLt_total _ _ h1 h2
        subst this
        simp only [List.map_cons, List.sum_cons, ha]; ring

theorem deltaAdd_sum (e d : K) (m : List (K × K)) : ((deltaAdd e d m).map Prod.snd).sum = (m.map Prod.snd).sum + d := by
  induction m with
  | nil => simp [deltaAdd]
  | cons p m ih =>
    unfold deltaAdd
    split
    · simp; ring
    · split
      · simp only [List.map_cons, List.sum_cons, ih]; ring
      · simp only [List.map_cons, List.sum_cons]; ring

/-- Integral of one cubic piece. -/
def pieceInt (k : K × K) (b : Bez K) : K := (k.2 - k.1) * ((b.b0 + b.b1 + b.b2 + b.b3) / 4)

theorem pieceInt_zero (k : K × K) : pieceInt k Bez.zero = 0 := by simp [pieceInt, Bez.zero]

theorem pieceInt_add (k : K × K) (x y : Bez K) : pieceInt k (x.add y) = pieceInt k x + pieceInt k y := by simp only [pieceInt, Bez.add]; ring

/-- Integral of a cubic piece from its start, in units of its width. -/
def Bez.prim (b : Bez K) (t : K) : K :=
  b.b0 * t + (b.b1 - b.b0) * (3 / 2 * t ^ 2) + (b.b2 - 2 * b.b1 + b.b0) * t ^ 3 + (b.b3 - 3 * b.b2 + 3 * b.b1 - b.b0) * (t ^ 4 / 4)

/-- Integral of all pieces. -/
def ivsInt (m : List ((K × K) × Bez K)) : K := (m.map fun p => pieceInt p.1 p.2).sum

/-- Weight in delta functions. -/
def deltaInt (d : List (K × K)) : K := (d.map Prod.snd).sum

theorem mapAdd_int (k : K × K) (d : Bez K) (m : List ((K × K) × Bez K)) : ivsInt (mapAdd k d m) = ivsInt m + pieceInt k d :=
  mapAdd_sum pieceInt pieceInt_zero pieceInt_add k d m

end

section
variable {K : Type} [Field K] [LinearOrder K] [IsStrictOrderedRing K]

/-- A tetrahedron adds its volume times its mean weight. -/
theorem accumSorted_int (V : K) (c0 c1 c2 c3 : Corner K) (h01 : c0.1 ≤ c1.1) (h12 : c1.1 ≤ c2.1) (h23 : c2.1 ≤ c3.1) (c : Cspline K) :
    ivsInt (accumSorted V c0 c1 c2 c3 c).ivs + deltaInt (accumSorted V c0 c1 c2 c3 c).deltas =
      ivsInt c.ivs + deltaInt c.deltas + V * ((c0.2 + c1.2 + c2.2 + c3.2) / 4) := by
  obtain ⟨e0, w0⟩ := c0
  obtain ⟨e1, w1⟩ := c1
  obtain ⟨e2, w2⟩ := c2
  obtain ⟨e3, w3⟩ := c3
  simp only at h01 h12 h23
  unfold accumSorted
  simp only
  split
  · have : ∀ x, deltaInt (deltaAdd e0 x c.deltas) = deltaInt c.deltas + x := fun x => deltaAdd_sum e0 x c.deltas
    simp only [this]; ring
  · rename_i hne
    have h30 : 0 < e3 - e0 := by
      rcases lt_or_eq_of_le (le_trans h01 (le_trans h12 h23)) with h | h
      · linarith
      · exact absurd h.symm hne
    rcases eq_or_lt_of_le h01 with E01 | E01 <;> rcases eq_or_lt_of_le h12 with E12 | E12 <;> rcases eq_or_lt_of_le h23 with E23 | E23
    · exact absurd (by rw [E01, E12, E23]) hne
    all_goals ((try subst E01); (try subst E12); (try subst E23))
    · have a : e3 - e0 ≠ 0 := ne_of_gt h30
      simp only [gt_iff_lt, lt_irrefl, if_false, E23, if_true, mapAdd_int, pieceInt]
      field_simp
      ring
    · have a : e2 - e0 ≠ 0 := ne_of_gt h30
      simp only [gt_iff_lt, lt_irrefl, if_false, E12, if_true, mapAdd_int, pieceInt]
      field_simp
      ring
    · have a : e3 - e0 ≠ 0 := ne_of_gt h30
      have b : e2 - e0 ≠ 0 := ne_of_gt (sub_pos.2 E12)
      simp only [gt_iff_lt, lt_irrefl, if_false, E12, E23, lt_trans E12 E23, if_true, mapAdd_int, pieceInt]
      field_simp
      ring
    · have a : e1 - e0 ≠ 0 := ne_of_gt h30
      simp only [gt_iff_lt, lt_irrefl, if_false, E01, if_true, mapAdd_int, pieceInt]
      field_simp
      ring
    · have a : e3 - e0 ≠ 0 := ne_of_gt h30
      have b : e1 - e0 ≠ 0 := ne_of_gt (sub_pos.2 E01)
      have d : e3 - e1 ≠ 0 := ne_of_gt (sub_pos.2 E23)
      simp only [gt_iff_lt, lt_irrefl, if_false, E01, E23, if_true, mapAdd_int, pieceInt]
      field_simp
      ring
    · have a : e2 - e0 ≠ 0 := ne_of_gt h30
      have d : e2 - e1 ≠ 0 := ne_of_gt (sub_pos.2 E12)
      simp only [gt_iff_lt, lt_irrefl, if_false, E01, E12, lt_trans E01 E12, if_true, mapAdd_int, pieceInt]
      field_simp
      ring
    · have a : e3 - e0 ≠ 0 := ne_of_gt h30
      have b : e2 - e0 ≠ 0 := ne_of_gt (sub_pos.2 (lt_trans E01 E12))
      have d : e3 - e1 ≠ 0 := ne_of_gt (sub_pos.2 (lt_trans E12 E23))
      simp only [gt_iff_lt, E01, E12, E23, lt_trans E01 E12, lt_trans E12 E23, if_true, mapAdd_int, pieceInt]
      field_simp
      ring

end

end Jdftx.Tetra
