import Verif.Spec.Unfold
import Verif.Lemmas.Mat3
import Mathlib.LinearAlgebra.FreeModule.Finite.CardQuotient
import Mathlib.LinearAlgebra.Matrix.ToLin
import Mathlib.LinearAlgebra.Matrix.NonsingularInverse
import Mathlib.LinearAlgebra.Matrix.ToLinearEquiv
import Mathlib.Tactic.Ring
import Mathlib.Tactic.Linarith
import Mathlib.Tactic.LinearCombination
import Mathlib.Tactic.FinCases
/-! # Lemmas on band unfolding -/
namespace Jdftx.Unfold
open Jdftx.M3
open Classical

theorem wrap_range (x : ℝ) : -(1 / 2) < wrap x ∧ wrap x ≤ 1 / 2 := by
  unfold wrap
  have h1 := Int.le_ceil (-(1 / 2) + x)
  have h2 := Int.ceil_lt_add_one (-(1 / 2) + x)
  constructor <;> linarith

theorem wrap_diff (x : ℝ) : ∃ t : ℤ, x = wrap x + t := ⟨_, by unfold wrap; ring⟩

theorem det_cast (M : Mat ℤ) : (det (castMat M : Mat ℝ)) = ((det M : ℤ) : ℝ) := by
  simp [det, box, dot, cross, row, vec, castMat]

theorem det_ne {M : Mat ℤ} (h : det M ≠ 0) : det (castMat M : Mat ℝ) ≠ 0 := by
  rw [det_cast]; exact_mod_cast h

theorem inv_mul' {R : Mat ℝ} (h : det R ≠ 0) : Matrix.of (Basis.inv R) * Matrix.of R = 1 := by
  unfold Basis.inv
  rw [smul_eq, adjugate_eq, Matrix.smul_mul, Matrix.adjugate_mul, smul_smul, ← det_eq, one_div, inv_mul_cancel₀ h, one_smul]

theorem vecMul_inv {R : Mat ℝ} (h : det R ≠ 0) (v : V3 ℝ) : mulVM (mulVM v (Basis.inv R)) R = v := by
  have e : ∀ (w : V3 ℝ) (A : Mat ℝ), mulVM w A = Matrix.vecMul w (Matrix.of A) := by
    intro w A; funext j; simp [mulVM, Matrix.vecMul, dotProduct, Fin.sum_univ_three]
  rw [e, e, Matrix.vecMul_vecMul, inv_mul' h, Matrix.vecMul_one]

theorem belongs (M : Mat ℤ) (h : det M ≠ 0) (k : V3 ℝ) (iG : V3 ℤ) : BelongsTo M k iG (unitK M k iG) := by
  choose t ht using fun d => wrap_diff (mulVM (fun c => k c + (iG c : ℝ)) (Basis.inv (castMat M)) d)
  refine ⟨t, fun j => ?_⟩
  have := congrFun (vecMul_inv (det_ne h) fun c => k c + (iG c : ℝ)) j
  rw [← this]
  simp only [unitK]
  rw [← ht 0, ← ht 1, ← ht 2]
  generalize mulVM (fun c => k c + (iG c : ℝ)) (Basis.inv (castMat M)) = v
  simp only [mulVM, castMat]; ring

/-- Rows of the matrix are independent. -/
theorem independent (M : Mat ℤ) (h : det M ≠ 0) (v : V3 ℝ)
    (hv : ∀ j, v 0 * M 0 j + v 1 * M 1 j + v 2 * M 2 j = 0) : ∀ i, v i = 0 := by
  have hd : (Matrix.of (castMat M : Mat ℝ)).det ≠ 0 := by rw [← det_eq]; exact det_ne h
  have h0 : Matrix.vecMul v (Matrix.of (castMat M : Mat ℝ)) = 0 := by
    funext j
    simp only [Matrix.vecMul, dotProduct, Fin.sum_univ_three, Matrix.of_apply, castMat, Pi.zero_apply]
    exact hv j
  exact fun i => congrFun (Matrix.eq_zero_of_vecMul_eq_zero hd h0) i

/-- Classes of plane waves. -/
theorem same_iff (M : Mat ℤ) (h : det M ≠ 0) (k : V3 ℝ) (a b : V3 ℤ) :
    SameMod (unitK M k a) (unitK M k b) ↔ ∃ s : V3 ℤ, ∀ j, a j - b j = s 0 * M 0 j + s 1 * M 1 j + s 2 * M 2 j := by
  obtain ⟨ta, ha⟩ := belongs M h k a
  obtain ⟨tb, hb⟩ := belongs M h k b
  constructor
  · rintro ⟨τ, hτ⟩
    refine ⟨fun d => τ d + ta d - tb d, fun j => ?_⟩
    have h1 := ha j
    rw [hτ 0, hτ 1, hτ 2] at h1
    have h2 := hb j
    have : ((a j - b j : ℤ) : ℝ) =
        (((τ 0 + ta 0 - tb 0) * M 0 j + (τ 1 + ta 1 - tb 1) * M 1 j + (τ 2 + ta 2 - tb 2) * M 2 j : ℤ) : ℝ) := by
      push_cast; linear_combination h2 - h1
    exact_mod_cast this
  · rintro ⟨s, hs⟩
    have := independent M h (fun d => unitK M k a d + ta d - unitK M k b d - tb d - s d) fun j => by
      have h3 : ((a j - b j : ℤ) : ℝ) = ((s 0 * M 0 j + s 1 * M 1 j + s 2 * M 2 j : ℤ) : ℝ) := by rw [hs j]
      push_cast at h3
      linear_combination ha j - hb j + h3
    refine ⟨fun d => tb d + s d - ta d, fun d => ?_⟩
    have := this d
    push_cast
    linarith

/-- Integer combinations of the rows. -/
noncomputable def rowMap (M : Mat ℤ) : (Fin 3 → ℤ) →ₗ[ℤ] (Fin 3 → ℤ) := Matrix.toLin' (Matrix.of M).transpose

theorem rowMap_apply (M : Mat ℤ) (s : V3 ℤ) (j : Fin 3) : rowMap M s j = s 0 * M 0 j + s 1 * M 1 j + s 2 * M 2 j := by
  simp [rowMap, Matrix.toLin'_apply, Matrix.mulVec, dotProduct, Fin.sum_univ_three, mul_comm]

theorem card_classes (M : Mat ℤ) (h : det M ≠ 0) :
    Nat.card ((Fin 3 → ℤ) ⧸ LinearMap.range (rowMap M)) = nUnits M := by
  have hdet : LinearMap.det (rowMap M) = det M := by
    rw [rowMap, LinearMap.det_toLin', Matrix.det_transpose, det_eq]
  have hinj : Function.Injective (rowMap M) := by
    rw [← LinearMap.ker_eq_bot]
    apply LinearMap.ker_eq_bot'.mpr
    intro s hs
    funext i
    have := independent M h (fun d => (s d : ℝ)) (fun j => by
      have := congrFun hs j
      rw [rowMap_apply] at this
      simp only [Pi.zero_apply] at this
      exact_mod_cast this) i
    exact_mod_cast this
  have := Submodule.natAbs_det_equiv (LinearMap.range (rowMap M)) (LinearEquiv.ofInjective (rowMap M) hinj).toAddEquiv
  rw [← this, nUnits, ← hdet]
  congr 2

theorem mk_eq_iff (M : Mat ℤ) (h : det M ≠ 0) (k : V3 ℝ) (a b : V3 ℤ) :
    (Submodule.Quotient.mk a : (Fin 3 → ℤ) ⧸ LinearMap.range (rowMap M)) = Submodule.Quotient.mk b ↔
      SameMod (unitK M k a) (unitK M k b) := by
  rw [Submodule.Quotient.eq, same_iff M h, LinearMap.mem_range]
  constructor
  · rintro ⟨s, hs⟩
    exact ⟨s, fun j => by rw [← rowMap_apply, hs]; rfl⟩
  · rintro ⟨s, hs⟩
    exact ⟨s, by funext j; rw [rowMap_apply, ← hs j]; rfl⟩

theorem units_pos (M : Mat ℤ) (h : det M ≠ 0) : 0 < nUnits M := Int.natAbs_pos.mpr h

theorem finite_classes (M : Mat ℤ) (h : det M ≠ 0) : Finite ((Fin 3 → ℤ) ⧸ LinearMap.range (rowMap M)) :=
  Nat.finite_of_card_ne_zero (by rw [card_classes M h]; exact (units_pos M h).ne')

/-- No more classes than units. -/
theorem classes_le (M : Mat ℤ) (h : det M ≠ 0) (k : V3 ℝ) (L : List (V3 ℤ))
    (hL : L.Pairwise fun a b => ¬ SameMod (unitK M k b) (unitK M k a)) : L.length ≤ nUnits M := by
  have := finite_classes M h
  have := Fintype.ofFinite ((Fin 3 → ℤ) ⧸ LinearMap.range (rowMap M))
  have hn : (L.map fun a => (Submodule.Quotient.mk a : (Fin 3 → ℤ) ⧸ LinearMap.range (rowMap M))).Nodup := by
    rw [List.Nodup, List.pairwise_map]
    exact hL.imp fun hab e => hab ((mk_eq_iff M h k _ _).mp e.symm)
  have := hn.length_le_card
  rw [List.length_map, ← Nat.card_eq_fintype_card, card_classes M h] at this
  exact this

/-- All classes give all units. -/
theorem classes_ge (M : Mat ℤ) (h : det M ≠ 0) (k : V3 ℝ) (L : List (V3 ℤ))
    (hL : ∀ v : V3 ℤ, ∃ a ∈ L, SameMod (unitK M k v) (unitK M k a)) : nUnits M ≤ L.length := by
  have := finite_classes M h
  have := Fintype.ofFinite ((Fin 3 → ℤ) ⧸ LinearMap.range (rowMap M))
  have hu : (L.map fun a => (Submodule.Quotient.mk a : (Fin 3 → ℤ) ⧸ LinearMap.range (rowMap M))).toFinset = Finset.univ := by
    apply Finset.eq_univ_of_forall
    intro x
    obtain ⟨v, rfl⟩ := Submodule.Quotient.mk_surjective _ x
    obtain ⟨a, ha, hs⟩ := hL v
    rw [List.mem_toFinset, List.mem_map]
    exact ⟨a, ha, ((mk_eq_iff M h k v a).mpr hs).symm⟩
  have := List.toFinset_card_le (L.map fun a => (Submodule.Quotient.mk a : (Fin 3 → ℤ) ⧸ LinearMap.range (rowMap M)))
  rw [hu, Finset.card_univ, ← Nat.card_eq_fintype_card, card_classes M h, List.length_map] at this
  exact this

theorem known_map (M : Mat ℤ) (k : V3 ℝ) (L : List (V3 ℤ)) (a : V3 ℤ) :
    known (L.map (unitK M k)) (unitK M k a) ↔ ∃ b ∈ L, SameMod (unitK M k a) (unitK M k b) := by
  unfold known SameMod
  simp

theorem same_refl (p : V3 ℝ) : SameMod p p := ⟨fun _ => 0, fun d => by simp⟩

/-- What the loop leaves. -/
theorem collect_spec (M : Mat ℤ) (h : det M ≠ 0) (k : V3 ℝ) (basis L : List (V3 ℤ))
    (hL : L.Pairwise fun a b => ¬ SameMod (unitK M k b) (unitK M k a)) :
    ∃ L' : List (V3 ℤ), collect M k basis (L.map (unitK M k)) = L'.map (unitK M k) ∧
      (L'.Pairwise fun a b => ¬ SameMod (unitK M k b) (unitK M k a)) ∧ (∀ a ∈ L', a ∈ L ∨ a ∈ basis) ∧
      (∀ a ∈ L, a ∈ L') ∧ ∀ a ∈ basis, ∃ b ∈ L', SameMod (unitK M k a) (unitK M k b) := by
  induction basis generalizing L with
  | nil => exact ⟨L, rfl, hL, fun a ha => Or.inl ha, fun _ h => h, fun a ha => by simp at ha⟩
  | cons G rest ih =>
    unfold collect
    by_cases hk : known (L.map (unitK M k)) (unitK M k G)
    · rw [if_pos hk]
      obtain ⟨L', h1, h2, h3, h4, h5⟩ := ih L hL
      refine ⟨L', h1, h2, fun a ha => (h3 a ha).imp id (List.mem_cons_of_mem _), h4, fun a ha => ?_⟩
      rcases List.mem_cons.mp ha with rfl | ha
      · obtain ⟨b, hb, hs⟩ := (known_map M k L a).mp hk
        exact ⟨b, h4 b hb, hs⟩
      · exact h5 a ha
    · rw [if_neg hk]
      have hadd : ∀ (J : List (V3 ℤ)) (a : V3 ℤ), (J.Pairwise fun a b => ¬ SameMod (unitK M k b) (unitK M k a)) →
          (¬ ∃ b ∈ J, SameMod (unitK M k a) (unitK M k b)) →
          (J ++ [a]).Pairwise fun a b => ¬ SameMod (unitK M k b) (unitK M k a) := by
        intro J a hJ hn
        rw [List.pairwise_append]
        refine ⟨hJ, List.pairwise_singleton _ _, fun b hb c hc hs => ?_⟩
        rw [List.mem_singleton] at hc
        subst hc
        exact hn ⟨b, hb, hs⟩
      have hL' := hadd L G hL fun hc => hk ((known_map M k L G).mpr hc)
      have em : L.map (unitK M k) ++ [unitK M k G] = (L ++ [G]).map (unitK M k) := by simp
      simp only [em]
      by_cases hf : ((L ++ [G]).map (unitK M k)).length = nUnits M
      · rw [if_pos hf]
        refine ⟨L ++ [G], rfl, hL', fun a ha => ?_, fun a ha => List.mem_append_left _ ha, fun a _ => ?_⟩
        · rcases List.mem_append.mp ha with ha | ha
          · exact Or.inl ha
          · rw [List.mem_singleton] at ha; subst ha; exact Or.inr (List.mem_cons_self ..)
        · by_contra hc
          have := classes_le M h k _ (hadd _ a hL' hc)
          rw [List.length_append, List.length_singleton] at this
          rw [List.length_map] at hf
          omega
      · rw [if_neg hf]
        obtain ⟨L', h1, h2, h3, h4, h5⟩ := ih (L ++ [G]) hL'
        refine ⟨L', h1, h2, fun a ha => ?_, fun a ha => h4 a (List.mem_append_left _ ha), fun a ha => ?_⟩
        · rcases h3 a ha with ha | ha
          · rcases List.mem_append.mp ha with ha | ha
            · exact Or.inl ha
            · rw [List.mem_singleton] at ha; subst ha; exact Or.inr (List.mem_cons_self ..)
          · exact Or.inr (List.mem_cons_of_mem _ ha)
        · rcases List.mem_cons.mp ha with rfl | ha
          · exact ⟨a, h4 a (by simp), same_refl _⟩
          · exact h5 a ha

end Jdftx.Unfold
