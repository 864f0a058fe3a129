import Verif.Spec.CoreOverlap
import Mathlib.Algebra.Order.Round
import Mathlib.Tactic.Ring
import Mathlib.Tactic.Linarith
import Mathlib.Tactic.LinearCombination
import Mathlib.Tactic.Positivity
import Mathlib.Tactic.NormNum
import Mathlib.Tactic.FinCases
/-! # Lemmas on overlapping atoms -/
namespace Jdftx.Core
open Jdftx.M3

/-- A pair that the loop accepts. -/
def Fine (cond : Cond) (R : Mat ℝ) (p : Pair) : Prop := Apart cond p.r p.r1 (sizetest R p.x p.y)

theorem body_ok {cond : Cond} {R : Mat ℝ} {p : Pair} (h : Fine cond R p) (b : Bool) : body cond R (.ok b) p = .ok b := by
  obtain ⟨h1, h2, h3⟩ := h
  unfold body minIonDistance
  simp only
  rw [if_neg (fun h => absurd (h2 h.1) (not_le.mpr h.2)), if_neg (fun h => absurd (h3 h.1) (not_le.mpr h.2)),
    if_neg (not_lt.mpr h1)]

theorem body_bad {cond : Cond} {R : Mat ℝ} {p : Pair} (h : ¬ Fine cond R p) (okay : Res Bool) :
    body cond R okay p ≠ .ok true := by
  unfold body
  cases okay with
  | error e => simp
  | ok b =>
    simp only
    split_ifs with h1 h2 h3
    · simp
    · simp
    · simp
    · exact absurd ⟨not_lt.mp h3, fun hc => not_lt.mp fun hl => h1 ⟨hc, hl⟩, fun hc => not_lt.mp fun hl => h2 ⟨hc, hl⟩⟩ h

theorem body_stays {cond : Cond} {R : Mat ℝ} (p : Pair) {okay : Res Bool} (h : okay ≠ .ok true) :
    body cond R okay p ≠ .ok true := by
  by_cases hf : Fine cond R p
  · cases okay with
    | error e => simp [body]
    | ok b => rw [body_ok hf]; exact h
  · exact body_bad hf okay

theorem fold_stays {cond : Cond} {R : Mat ℝ} (l : List Pair) {okay : Res Bool} (h : okay ≠ .ok true) :
    l.foldl (body cond R) okay ≠ .ok true := by
  induction l generalizing okay with
  | nil => exact h
  | cons p l ih => exact ih (body_stays p h)

theorem fold_iff (cond : Cond) (R : Mat ℝ) (l : List Pair) :
    l.foldl (body cond R) (.ok true) = .ok true ↔ ∀ p ∈ l, Fine cond R p := by
  induction l with
  | nil => simp
  | cons p l ih =>
    rw [List.foldl_cons]
    by_cases hf : Fine cond R p
    · rw [body_ok hf, ih]; simp [hf]
    · constructor
      · intro h; exact absurd h (fold_stays l (body_bad hf _))
      · intro h; exact absurd (h p (by simp)) hf

theorem mem_visited (sps : List Species) (p : Pair) : p ∈ visited sps ↔
    ∃ i n i1 n1, Atom sps i n p.x p.r ∧ Atom sps i1 n1 p.y p.r1 ∧ p.r ≠ 0 ∧ p.r1 ≠ 0 ∧ (i1 = i → n < n1) := by
  unfold visited
  simp only [List.mem_flatMap]
  constructor
  · rintro ⟨⟨sp, i⟩, h1, ⟨x, n⟩, h2, h3⟩
    rw [List.mem_zipIdx_iff_getElem?] at h1 h2
    split_ifs at h3 with hr
    · simp at h3
    · simp only [List.mem_flatMap] at h3
      obtain ⟨⟨sp1, i1⟩, h4, h5⟩ := h3
      rw [List.mem_zipIdx_iff_getElem?] at h4
      split_ifs at h5 with hr1 hi
      · simp at h5
      · obtain ⟨y, hy, rfl⟩ := List.mem_map.mp h5
        obtain ⟨k, hk⟩ := List.mem_iff_getElem?.mp hy
        rw [List.getElem?_drop] at hk
        exact ⟨i, n, i1, n + 1 + k, ⟨sp, h1, rfl, h2⟩, ⟨sp1, h4, rfl, hk⟩, hr, hr1, fun _ => by omega⟩
      · obtain ⟨y, hy, rfl⟩ := List.mem_map.mp h5
        obtain ⟨k, hk⟩ := List.mem_iff_getElem?.mp hy
        rw [List.getElem?_drop] at hk
        exact ⟨i, n, i1, 0 + k, ⟨sp, h1, rfl, h2⟩, ⟨sp1, h4, rfl, hk⟩, hr, hr1, fun h => absurd h hi⟩
  · rintro ⟨i, n, i1, n1, ⟨sp, h1, hr, h2⟩, ⟨sp1, h3, hr1, h4⟩, hn, hn1, hlt⟩
    refine ⟨(sp, i), List.mem_zipIdx_iff_getElem?.mpr h1, (p.x, n), List.mem_zipIdx_iff_getElem?.mpr h2, ?_⟩
    rw [if_neg (by rw [hr]; exact hn)]
    simp only [List.mem_flatMap]
    refine ⟨(sp1, i1), List.mem_zipIdx_iff_getElem?.mpr h3, ?_⟩
    rw [if_neg (by rw [hr1]; exact hn1), List.mem_map]
    refine ⟨p.y, ?_, by cases p; simp_all⟩
    rw [List.mem_iff_getElem?]
    by_cases hi : i1 = i
    · simp only [hi, if_true]
      refine ⟨n1 - (n + 1), ?_⟩
      rw [List.getElem?_drop]
      have := hlt hi
      rw [show n + 1 + (n1 - (n + 1)) = n1 by omega]; exact h4
    · simp only [hi, if_false]
      exact ⟨n1, by rw [List.getElem?_drop, zero_add]; exact h4⟩

theorem apart_mono {cond : Cond} {r r1 d d' : ℝ} (h : Apart cond r r1 d) (hd : d ≤ d') : Apart cond r r1 d' :=
  ⟨h.1.trans hd, fun hc => (h.2.1 hc).trans hd, fun hc => (h.2.2 hc).trans hd⟩

theorem apart_comm {cond : Cond} {r r1 d : ℝ} (h : Apart cond r r1 d) : Apart cond r1 r d :=
  ⟨h.1, fun hc => by rw [add_comm]; exact h.2.1 hc, fun hc => by rw [add_comm]; exact h.2.2 hc⟩

theorem len_neg (R : Mat ℝ) (v : V3 ℝ) : len R (fun i => -v i) = len R v := by
  unfold len; congr 1; simp only [dot, mulMV]; ring

/-- The wrapped difference is one of the images. -/
theorem sizetest_image (R : Mat ℝ) (x y : V3 ℝ) : ∃ m : V3 Int, sizetest R x y = len R fun i => x i - y i + m i := by
  refine ⟨fun i => -⌊(x i - y i) + 0.5⌋, ?_⟩
  unfold sizetest len
  push_cast
  rfl

/-- For right angles the wrapped difference is the shortest image. -/
theorem sizetest_le {R : Mat ℝ} (hR : Orthogonal R) (x y : V3 ℝ) (m : V3 Int) :
    sizetest R x y ≤ len R fun i => x i - y i + m i := by
  have sq : ∀ v : V3 ℝ, dot (mulMV R v) (mulMV R v) =
      (R 0 0 ^ 2 + R 1 0 ^ 2 + R 2 0 ^ 2) * v 0 ^ 2 + (R 0 1 ^ 2 + R 1 1 ^ 2 + R 2 1 ^ 2) * v 1 ^ 2 +
        (R 0 2 ^ 2 + R 1 2 ^ 2 + R 2 2 ^ 2) * v 2 ^ 2 := by
    intro v
    have h01 := hR 0 1 (by decide)
    have h02 := hR 0 2 (by decide)
    have h12 := hR 1 2 (by decide)
    simp only [dot, mulMV]
    linear_combination 2 * v 0 * v 1 * h01 + 2 * v 0 * v 2 * h02 + 2 * v 1 * v 2 * h12
  have wr : ∀ (u : ℝ) (k : ℤ), (u - ⌊u + 0.5⌋) ^ 2 ≤ (u + k) ^ 2 := by
    intro u k
    have h := round_le u (-k)
    rw [round_eq] at h
    have e : (0.5 : ℝ) = 1 / 2 := by norm_num
    rw [e]
    apply sq_le_sq.mpr
    push_cast at h
    simpa using h
  unfold sizetest len
  apply Real.sqrt_le_sqrt
  rw [sq, sq]
  have h0 := wr (x 0 - y 0) (m 0)
  have h1 := wr (x 1 - y 1) (m 1)
  have h2 := wr (x 2 - y 2) (m 2)
  have a0 : 0 ≤ R 0 0 ^ 2 + R 1 0 ^ 2 + R 2 0 ^ 2 := by positivity
  have a1 : 0 ≤ R 0 1 ^ 2 + R 1 1 ^ 2 + R 2 1 ^ 2 := by positivity
  have a2 : 0 ≤ R 0 2 ^ 2 + R 1 2 ^ 2 + R 2 2 ^ 2 := by positivity
  exact add_le_add (add_le_add (mul_le_mul_of_nonneg_left h0 a0) (mul_le_mul_of_nonneg_left h1 a1))
    (mul_le_mul_of_nonneg_left h2 a2)

end Jdftx.Core
