import Verif.Lemmas.Unfold
/-!
# C120: band unfolding lists every unit-cell k-point once

For each supercell k-point the list of unit-cell k-points has each one that a plane wave of the basis belongs to exactly once,
although the loop over plane waves stops early. If the basis reaches all of them, there are as many as unit cells in the
supercell, which the file of weights relies on; otherwise writing the file reads beyond the array.
-/
namespace Jdftx.Unfold
open Jdftx.M3

/-- Every k-point listed is in `(-1/2, 1/2]` and a plane wave of the basis belongs to it; no two listed differ by a reciprocal
lattice vector; there are at most as many as unit cells in the supercell. -/
theorem C120_listed (M : Mat ℤ) (h : det M ≠ 0) (k : V3 ℝ) (basis : List (V3 ℤ)) :
    (∀ p ∈ kUnit M k basis, (∀ d, -(1 / 2) < p d ∧ p d ≤ 1 / 2) ∧ ∃ iG ∈ basis, BelongsTo M k iG p) ∧
    ((kUnit M k basis).Pairwise fun p q => ¬ SameMod q p) ∧
    (kUnit M k basis).length ≤ (det M).natAbs := by
  obtain ⟨L, h1, h2, h3, _, _⟩ := collect_spec M h k basis [] List.Pairwise.nil
  have e : kUnit M k basis = L.map (unitK M k) := h1
  rw [e]
  refine ⟨fun p hp => ?_, ?_, ?_⟩
  · obtain ⟨a, ha, rfl⟩ := List.mem_map.mp hp
    refine ⟨fun d => wrap_range _, a, ?_, belongs M h k a⟩
    rcases h3 a ha with h | h
    · simp at h
    · exact h
  · rw [List.pairwise_map]; exact h2
  · rw [List.length_map]; exact classes_le M h k L h2

/-- Every plane wave of the basis belongs to a listed k-point, also those after the loop has stopped. -/
theorem C120_covered (M : Mat ℤ) (h : det M ≠ 0) (k : V3 ℝ) (basis : List (V3 ℤ)) :
    ∀ iG ∈ basis, ∃ p ∈ kUnit M k basis, BelongsTo M k iG p := by
  obtain ⟨L, h1, _, _, _, h5⟩ := collect_spec M h k basis [] List.Pairwise.nil
  have e : kUnit M k basis = L.map (unitK M k) := h1
  rw [e]
  intro a ha
  obtain ⟨b, hb, τ, hτ⟩ := h5 a ha
  obtain ⟨t, ht⟩ := belongs M h k a
  refine ⟨unitK M k b, List.mem_map.mpr ⟨b, hb, rfl⟩, fun d => τ d + t d, fun j => ?_⟩
  rw [← ht j, hτ 0, hτ 1, hτ 2]
  push_cast; ring

/-- If the basis has a plane wave in every class of integer vectors modulo the rows of `M`, there are exactly as many k-points
as unit cells and all weights are written, in order. Missing: the condition, see below. -/
theorem C120_written_partial (M : Mat ℤ) (h : det M ≠ 0) (k : V3 ℝ) (basis : List (V3 ℤ))
    (hb : ∀ v : V3 ℤ, ∃ iG ∈ basis, ∃ s : V3 ℤ, ∀ j, v j - iG j = s 0 * M 0 j + s 1 * M 1 j + s 2 * M 2 j)
    (nBands : ℕ) (w : V3 ℝ → ℕ → ℝ) :
    (kUnit M k basis).length = (det M).natAbs ∧
    writeWeights M nBands (unitWeights M k basis nBands w) = .ok (unitWeights M k basis nBands w) ∧
    (unitWeights M k basis nBands w).length = (det M).natAbs * nBands ∧
    ∀ i b p, (kUnit M k basis)[i]? = some p → b < nBands → (unitWeights M k basis nBands w)[i * nBands + b]? = some (w p b) := by
  have hlen : (kUnit M k basis).length = nUnits M := by
    obtain ⟨L, h1, h2, _, _, h5⟩ := collect_spec M h k basis [] List.Pairwise.nil
    have e : kUnit M k basis = L.map (unitK M k) := h1
    rw [e, List.length_map]
    refine le_antisymm (classes_le M h k L h2) (classes_ge M h k L fun v => ?_)
    obtain ⟨G, hG, hs⟩ := hb v
    obtain ⟨τ, hτ⟩ := (same_iff M h k v G).mpr hs
    obtain ⟨b, hbL, σ, hσ⟩ := h5 G hG
    exact ⟨b, hbL, fun d => σ d + τ d, fun d => by rw [hτ d, hσ d]; push_cast; ring⟩
  have hw : ∀ l : List (V3 ℝ), (l.flatMap fun p => (List.range nBands).map (w p)).length = l.length * nBands := by
    intro l
    induction l with
    | nil => simp
    | cons p l ih => rw [List.flatMap_cons, List.length_append, ih]; simp; ring
  have hwl : (unitWeights M k basis nBands w).length = nUnits M * nBands := by
    unfold unitWeights; rw [hw, hlen]
  refine ⟨hlen, ?_, hwl, ?_⟩
  · unfold writeWeights
    rw [if_neg (by rw [hwl]; exact lt_irrefl _), List.take_of_length_le hwl.le]
  · unfold unitWeights
    generalize kUnit M k basis = l
    intro i b p hi hbn
    induction l generalizing i with
    | nil => simp at hi
    | cons q l ih =>
      rw [List.flatMap_cons]
      cases i with
      | zero =>
        simp only [List.getElem?_cons_zero, Option.some.injEq] at hi
        subst hi
        rw [zero_mul, zero_add, List.getElem?_append_left (by simpa using hbn)]
        simp [hbn]
      | succ i =>
        rw [List.getElem?_cons_succ] at hi
        rw [List.getElem?_append_right (by simp; nlinarith)]
        have : (i + 1) * nBands + b - ((List.range nBands).map (w q)).length = i * nBands + b := by
          rw [List.length_map, List.length_range, add_mul, one_mul]; omega
        rw [this]
        exact ih i hi

/-- With a single plane wave and a supercell of two unit cells, writing the weights reads beyond the array. -/
theorem C120_small_basis_fails : ∃ (M : Mat ℤ) (basis : List (V3 ℤ)), det M ≠ 0 ∧ basis ≠ [] ∧
    ∀ (k : V3 ℝ) (w : V3 ℝ → ℕ → ℝ), writeWeights M 1 (unitWeights M k basis 1 w) = .error .ub := by
  have hd : det (diag (2 : ℤ) 1 1) = 2 := by decide
  refine ⟨diag 2 1 1, [fun _ => 0], by rw [hd]; norm_num, by simp, fun k w => ?_⟩
  have hn : nUnits (diag (2 : ℤ) 1 1) = 2 := by rw [nUnits, hd]; rfl
  have hl : ¬ known [] (unitK (diag (2 : ℤ) 1 1) k fun _ => 0) := by
    rintro ⟨p, hp, _⟩; simp at hp
  have hk : kUnit (diag (2 : ℤ) 1 1) k [fun _ => 0] = [unitK (diag (2 : ℤ) 1 1) k fun _ => 0] := by
    simp [kUnit, collect, hl, hn]
  unfold writeWeights unitWeights
  rw [hk, hn, if_pos (by simp)]

/-- The hypothesis of `C120_written_partial` is met by a supercell of two unit cells and four plane waves. -/
example : det (diag (2 : ℤ) 1 1) ≠ 0 ∧ ∀ v : V3 ℤ, ∃ iG ∈ [vec 0 0 0, vec 0 1 0, vec 1 0 0, vec (-1) 0 0], ∃ s : V3 ℤ,
    ∀ j, v j - iG j = s 0 * diag 2 1 1 0 j + s 1 * diag 2 1 1 1 j + s 2 * diag 2 1 1 2 j := by
  refine ⟨by decide, fun v => ?_⟩
  rcases Int.even_or_odd' (v 0) with ⟨c, hc | hc⟩
  · refine ⟨vec 0 0 0, by simp, vec c (v 1) (v 2), fun j => ?_⟩
    fin_cases j <;> simp [vec, diag, hc, mul_comm]
  · refine ⟨vec 1 0 0, by simp, vec c (v 1) (v 2), fun j => ?_⟩
    fin_cases j <;> simp [vec, diag, hc, mul_comm]

end Jdftx.Unfold
