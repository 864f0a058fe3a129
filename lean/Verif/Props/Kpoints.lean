import Verif.Model.Kpoints
import Verif.Spec.Kpoints
import Mathlib.Algebra.Order.Floor.Ring
import Mathlib.Data.List.Nodup
import Mathlib.Tactic.Linarith
import Mathlib.Tactic.FieldSimp
import Mathlib.Tactic.FinCases
import Mathlib.Data.Fintype.Basic
import Mathlib.Tactic.LinearCombination
import Mathlib.Tactic.Ring
import Mathlib.Data.Rat.Floor

/-!
# C31: k-point folding
-/
namespace Jdftx.Kpts
open Jdftx.M3

variable {K : Type} [Field K] [LinearOrder K] [IsStrictOrderedRing K] [FloorRing K]

theorem fmodPositive_spec (x : K) : 0 ≤ fmodPositive x 1 ∧ fmodPositive x 1 < 1 ∧ ∃ n : Int, fmodPositive x 1 = x + (n : K) := by
  unfold fmodPositive fmod
  simp only [div_one, mul_one, abs_one]
  split
  · next hx =>
    have h1 := Int.le_ceil x
    have h2 := Int.ceil_lt_add_one x
    split
    · exact ⟨by linarith, by linarith, 1 - ⌈x⌉, by push_cast; ring⟩
    · exact ⟨by linarith, by linarith, -⌈x⌉, by push_cast; ring⟩
  · next hx =>
    have h1 := Int.floor_le x
    have h2 := Int.lt_floor_add_one x
    split
    · linarith
    · exact ⟨by linarith, by linarith, -⌊x⌋, by push_cast; ring⟩

theorem mem_intRange (n i : Int) : i ∈ intRange n ↔ 0 ≤ i ∧ i < n := by
  unfold intRange
  simp only [List.mem_map, List.mem_range]
  constructor
  · rintro ⟨m, hm, rfl⟩; omega
  · rintro ⟨h1, h2⟩; exact ⟨i.toNat, by omega, by omega⟩

theorem nodup_intRange (n : Int) : (intRange n).Nodup := by
  unfold intRange
  exact List.Nodup.map (fun a b h => by simpa using h) List.nodup_range

theorem mem_foldIndices (kfold i : V3 Int) : i ∈ foldIndices kfold ↔ ∀ c, 0 ≤ i c ∧ i c < kfold c := by
  unfold foldIndices
  simp only [List.mem_flatMap, List.mem_map, mem_intRange]
  constructor
  · rintro ⟨a, ha, b, hb, d, hd, rfl⟩ c
    fin_cases c
    · exact ha
    · exact hb
    · exact hd
  · intro h
    refine ⟨i 0, h 0, i 1, h 1, i 2, h 2, ?_⟩
    funext c; fin_cases c <;> rfl

theorem nodup_foldIndices (kfold : V3 Int) : (foldIndices kfold).Nodup := by
  unfold foldIndices
  have v0 : ∀ a b c : Int, (vec a b c : V3 Int) 0 = a := fun _ _ _ => rfl
  have v1 : ∀ a b c : Int, (vec a b c : V3 Int) 1 = b := fun _ _ _ => rfl
  have v2 : ∀ a b c : Int, (vec a b c : V3 Int) 2 = c := fun _ _ _ => rfl
  rw [List.nodup_flatMap]
  constructor
  · intro a _
    rw [List.nodup_flatMap]
    constructor
    · intro b _
      refine List.Nodup.map ?_ (nodup_intRange _)
      intro x y h
      simpa [v2] using congrFun h 2
    · refine List.Pairwise.imp ?_ (nodup_intRange (kfold 1))
      intro x y hxy
      simp only [Function.onFun]
      intro z hz1 hz2
      simp only [List.mem_map] at hz1 hz2
      obtain ⟨c, _, rfl⟩ := hz1
      obtain ⟨d, _, hd⟩ := hz2
      exact hxy (by simpa [v1] using (congrFun hd 1).symm)
  · refine List.Pairwise.imp ?_ (nodup_intRange (kfold 0))
    intro x y hxy
    simp only [Function.onFun]
    intro z hz1 hz2
    simp only [List.mem_flatMap, List.mem_map] at hz1 hz2
    obtain ⟨b, _, c, _, rfl⟩ := hz1
    obtain ⟨b', _, d, _, hd⟩ := hz2
    exact hxy (by simpa [v0] using (congrFun hd 0).symm)

theorem length_foldIndices (kfold : V3 Int) (h : ∀ c, 0 < kfold c) :
    ((foldIndices kfold).length : Int) = kfold 0 * kfold 1 * kfold 2 := by
  have hl : ∀ n, (intRange n).length = n.toNat := by intro n; simp [intRange]
  have hc : ∀ (l : List Int) (m : Nat), (l.map fun _ => m).sum = l.length * m := by
    intro l m; induction l with
    | nil => simp
    | cons a l ih => simp [Nat.add_mul, Nat.add_comm]
  unfold foldIndices
  simp only [List.length_flatMap, List.length_map, hl, hc]
  have h0 := h 0
  have h1 := h 1
  have h2 := h 2
  push_cast
  rw [Int.toNat_of_nonneg h0.le, Int.toNat_of_nonneg h1.le, Int.toNat_of_nonneg h2.le, mul_assoc]

omit [IsStrictOrderedRing K] in
theorem foldCoord_equiv (k : K) (i n : Int) : ∃ m : Int, foldCoord k i n = (k + i) / n + (m : K) := by
  unfold foldCoord
  simp only
  split
  · exact ⟨-1, by push_cast; ring⟩
  · exact ⟨0, by simp⟩

theorem foldCoord_range (k : K) (h0 : 0 ≤ k) (h1 : k < 1) (i n : Int) (hn : 0 < n) (hi : 0 ≤ i ∧ i < n) :
    -(1 / 2) < foldCoord k i n ∧ foldCoord k i n ≤ 1 / 2 := by
  have hn' : (0 : K) < n := by exact_mod_cast hn
  have hi0 : (0 : K) ≤ i := by exact_mod_cast hi.1
  have hi1 : (i : K) + 1 ≤ n := by exact_mod_cast hi.2
  have hq0 : 0 ≤ (k + (i : K)) / n := div_nonneg (by linarith) hn'.le
  have hq1 : (k + (i : K)) / n < 1 := by rw [div_lt_one hn']; linarith
  unfold foldCoord
  simp only
  split
  · next h => constructor <;> linarith
  · next h => constructor <;> linarith

/-- Folding succeeds for weights adding up to one and yields, for every input point in turn, a block of
`kfold[0]*kfold[1]*kfold[2]` points in (-1/2,1/2] sharing that point's weight; the block represents all k-points whose multiple
by the folding is the input point, each exactly once, up to reciprocal lattice vectors. -/
theorem C31_fold (kfold : V3 Int) (hk : ∀ c, 0 < kfold c) (qnums : List (QN K))
    (hw : |(qnums.map QN.weight).sum - 1| ≤ 1 / 10 ^ 12) :
    ∃ blocks : List (List (QN K)), kpointsFold kfold qnums = .ok blocks.flatten ∧
      List.Forall₂ (fun (q : QN K) (block : List (QN K)) =>
        (block.length : Int) = kfold 0 * kfold 1 * kfold 2 ∧
        (block.map QN.weight).sum = q.weight ∧
        (∀ p ∈ block, ∀ p' ∈ block, p.weight = p'.weight) ∧
        (∀ p ∈ block, ∀ c, -(1 / 2) < p.k c ∧ p.k c ≤ 1 / 2) ∧
        (∀ p ∈ block, FoldsTo kfold p.k q.k) ∧
        block.Pairwise (fun p p' => ¬EquivK p.k p'.k) ∧
        (∀ x, FoldsTo kfold x q.k → ∃ p ∈ block, EquivK x p.k)) qnums blocks := by
  refine ⟨qnums.map fun q => foldOne kfold (regularize q), ?_, ?_⟩
  · unfold kpointsFold
    have hs : (qnums.map QN.weight).foldl (· + ·) 0 = (qnums.map QN.weight).sum := by
      rw [List.sum_eq_foldl]
    simp only [hs]
    rw [if_neg (not_lt.2 hw), List.flatMap_def, List.map_map]
    rfl
  · rw [List.forall₂_map_right_iff]
    refine List.forall₂_same.2 ?_
    intro q _
    have hreg : ∀ c, 0 ≤ (regularize q).k c ∧ (regularize q).k c < 1 ∧ ∃ n : Int, (regularize q).k c = q.k c + (n : K) :=
      fun c => fmodPositive_spec (q.k c)
    have hkf : ∀ c, (0 : K) < kfold c := fun c => by exact_mod_cast hk c
    have hlen : ((foldOne kfold (regularize q)).length : Int) = kfold 0 * kfold 1 * kfold 2 := by
      unfold foldOne
      rw [List.length_map]; exact length_foldIndices kfold hk
    refine ⟨hlen, ?_, ?_, ?_, ?_, ?_, ?_⟩
    · have hconst : (foldOne kfold (regularize q)).map QN.weight
          = List.replicate (foldOne kfold (regularize q)).length (q.weight / ((kfold 0 * kfold 1 * kfold 2 : Int) : K)) := by
        unfold foldOne
        rw [List.map_map, List.length_map]
        refine List.eq_replicate_iff.2 ⟨by simp, ?_⟩
        intro b hb
        simp only [List.mem_map] at hb
        obtain ⟨_, _, rfl⟩ := hb
        rfl
      rw [hconst, List.sum_replicate, nsmul_eq_mul]
      have hcast : ((foldOne kfold (regularize q)).length : K) = ((kfold 0 * kfold 1 * kfold 2 : Int) : K) := by
        rw [← hlen]; simp
      rw [hcast]
      have hne : ((kfold 0 * kfold 1 * kfold 2 : Int) : K) ≠ 0 := by
        have := mul_pos (mul_pos (hkf 0) (hkf 1)) (hkf 2)
        push_cast
        exact this.ne'
      field_simp
    · intro p hp p' hp'
      unfold foldOne at hp hp'
      simp only [List.mem_map] at hp hp'
      obtain ⟨_, _, rfl⟩ := hp
      obtain ⟨_, _, rfl⟩ := hp'
      rfl
    · intro p hp c
      unfold foldOne at hp
      simp only [List.mem_map] at hp
      obtain ⟨i, hi, rfl⟩ := hp
      exact foldCoord_range _ (hreg c).1 (hreg c).2.1 _ _ (hk c) ((mem_foldIndices kfold i).1 hi c)
    · intro p hp c
      unfold foldOne at hp
      simp only [List.mem_map] at hp
      obtain ⟨i, hi, rfl⟩ := hp
      obtain ⟨_, _, n, hn⟩ := hreg c
      obtain ⟨m, hm⟩ := foldCoord_equiv ((regularize q).k c) (i c) (kfold c)
      refine ⟨n + i c + kfold c * m, ?_⟩
      have := (hkf c).ne'
      show (kfold c : K) * foldCoord _ _ _ = _
      rw [hm, hn]
      push_cast
      field_simp
      ring
    · unfold foldOne
      rw [List.pairwise_map]
      refine List.Pairwise.imp_of_mem ?_ (nodup_foldIndices kfold)
      intro i j hi hj hij hE
      apply hij
      funext c
      obtain ⟨n, hn⟩ := hE c
      obtain ⟨m1, h1⟩ := foldCoord_equiv ((regularize q).k c) (i c) (kfold c)
      obtain ⟨m2, h2⟩ := foldCoord_equiv ((regularize q).k c) (j c) (kfold c)
      simp only at hn
      rw [h1, h2] at hn
      have hne := (hkf c).ne'
      have e : (i c : K) = j c + kfold c * (n + m2 - m1 : Int) := by
        push_cast
        field_simp at hn
        linear_combination hn
      have e' : i c = j c + kfold c * (n + m2 - m1) := by exact_mod_cast e
      have hi' := (mem_foldIndices kfold i).1 hi c
      have hj' := (mem_foldIndices kfold j).1 hj c
      have hz : n + m2 - m1 = 0 := by
        by_contra hz
        have hkc := hk c
        rcases lt_or_gt_of_ne hz with h | h
        · have : kfold c * (n + m2 - m1) ≤ kfold c * (-1) := by
            apply mul_le_mul_of_nonneg_left _ hkc.le; omega
          omega
        · have : kfold c * 1 ≤ kfold c * (n + m2 - m1) := by
            apply mul_le_mul_of_nonneg_left _ hkc.le; omega
          omega
      rw [hz] at e'
      omega
    · intro x hx
      have hex : ∀ c, ∃ i : Int, (0 ≤ i ∧ i < kfold c) ∧ ∃ m : Int, x c = foldCoord ((regularize q).k c) i (kfold c) + (m : K) := by
        intro c
        obtain ⟨n, hn⟩ := hx c
        obtain ⟨_, _, n', hn'⟩ := hreg c
        have hkc := hk c
        refine ⟨(n - n') % kfold c, ⟨Int.emod_nonneg _ hkc.ne', Int.emod_lt_of_pos _ hkc⟩, ?_⟩
        obtain ⟨m, hm⟩ := foldCoord_equiv ((regularize q).k c) ((n - n') % kfold c) (kfold c)
        refine ⟨(n - n') / kfold c - m, ?_⟩
        rw [hm, hn']
        have hne := (hkf c).ne'
        have hdm : ((n - n' : Int) : K) = ((n - n') % kfold c : Int) + kfold c * ((n - n') / kfold c : Int) := by
          rw [← Int.cast_mul, ← Int.cast_add, Int.emod_add_mul_ediv]
        push_cast at hdm ⊢
        simp only at hn
        field_simp
        linear_combination hn + hdm
      choose i hi hm using hex
      refine ⟨⟨fun c => foldCoord ((regularize q).k c) (i c) (kfold c), _⟩, List.mem_map.2 ⟨i, (mem_foldIndices kfold i).2 hi, rfl⟩, ?_⟩
      intro c
      exact hm c

/-- The total weight is unchanged. -/
theorem C31_total_weight (kfold : V3 Int) (hk : ∀ c, 0 < kfold c) (qnums out : List (QN K))
    (h : kpointsFold kfold qnums = .ok out) : (out.map QN.weight).sum = (qnums.map QN.weight).sum := by
  have hw : |(qnums.map QN.weight).sum - 1| ≤ 1 / 10 ^ 12 := by
    by_contra hc
    push Not at hc
    unfold kpointsFold at h
    have hs : (qnums.map QN.weight).foldl (· + ·) 0 = (qnums.map QN.weight).sum := by rw [List.sum_eq_foldl]
    simp only [hs] at h
    rw [if_pos hc] at h
    cases h
  obtain ⟨blocks, e, hf⟩ := C31_fold kfold hk qnums hw
  rw [e] at h
  injection h with h
  subst h
  clear e hw
  induction hf with
  | nil => rfl
  | cons hab _ ih =>
    simp only [List.flatten_cons, List.map_append, List.sum_append, List.map_cons, List.sum_cons]
    rw [hab.2.1, ih]

omit [IsStrictOrderedRing K] in
/-- Weights that do not add up to one are rejected. -/
theorem C31_rejects (kfold : V3 Int) (qnums : List (QN K)) (hw : 1 / 10 ^ 12 < |(qnums.map QN.weight).sum - 1|) :
    kpointsFold kfold qnums = .error .die := by
  unfold kpointsFold
  have hs : (qnums.map QN.weight).foldl (· + ·) 0 = (qnums.map QN.weight).sum := by rw [List.sum_eq_foldl]
  simp only [hs]
  rw [if_pos hw]

-- Folding (0, 0, -1/4) by 2x1x2.
example : (kpointsFold (vec 2 1 2) [(⟨vec 0 0 (-1/4), 1⟩ : QN ℚ)]).map (List.map fun q => (q.k 0, q.k 1, q.k 2, q.weight))
    = .ok [(0, 0, 3/8, 1/4), (0, 0, -1/8, 1/4), (1/2, 0, 3/8, 1/4), (1/2, 0, -1/8, 1/4)] := by
  decide +kernel

end Jdftx.Kpts
