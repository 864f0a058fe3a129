import Verif.Lemmas.Vibrations
import Mathlib.LinearAlgebra.Matrix.NonsingularInverse
import Mathlib.Algebra.Module.LinearMap.Defs

/-!
# Lemmas for C105: directions and the force matrix
-/
namespace Jdftx.Vib
noncomputable section
open M3

variable {N ns : ℕ}

theorem dot_comm' (v w : V3 ℝ) : dot v w = dot w v := by simp only [dot]; ring
theorem dot_self_nonneg (v : V3 ℝ) : 0 ≤ dot v v := add_nonneg (add_nonneg (mul_self_nonneg _) (mul_self_nonneg _)) (mul_self_nonneg _)

theorem normalized_eq {v n : V3 ℝ} (h : normalized v = some n) : dot v v ≠ 0 ∧ ∀ k, n k = v k / Real.sqrt (dot v v) := by
  unfold normalized at h
  split at h
  · exact absurd h (by simp)
  · rename_i h0
    refine ⟨h0, fun k => ?_⟩
    rw [← Option.some.inj h]

theorem normalized_dot {v n : V3 ℝ} (h : normalized v = some n) (w : V3 ℝ) : dot w n = dot w v / Real.sqrt (dot v v) := by
  obtain ⟨_, hn⟩ := normalized_eq h
  simp only [dot, hn]; ring

theorem normalized_proj {v n : V3 ℝ} (h : normalized v = some n) (w : V3 ℝ) (k : Fin 3) : dot w n * n k = dot w v * v k / dot v v := by
  obtain ⟨h0, hn⟩ := normalized_eq h
  rw [normalized_dot h, hn, div_mul_div_comm, Real.mul_self_sqrt (dot_self_nonneg v)]

theorem normalized_unit {v n : V3 ℝ} (h : normalized v = some n) : dot n n = 1 := by
  obtain ⟨h0, hn⟩ := normalized_eq h
  rw [normalized_dot h, dot_comm', normalized_dot h, div_div, Real.mul_self_sqrt (dot_self_nonneg v), div_self h0]

theorem planarA_perp {d : V3 ℝ} (h : dot d d ≠ 0) : dot d (planarA d) = 0 := by
  have : dot d (planarA d) = dot d (planarStart d) - dot d d * (dot d (planarStart d) / dot d d) := by
    unfold planarA
    generalize dot d (planarStart d) / dot d d = q
    simp only [dot]; ring
  rw [this, mul_div_cancel₀ _ h, sub_self]

theorem cross_frame (a d v : V3 ℝ) (k : Fin 3) :
    dot (cross d a) (cross d a) * v k = dot v (cross d a) * cross d a k + (dot v a * dot d d - dot v d * dot d a) * a k + (dot v d * dot a a - dot v a * dot d a) * d k := by
  fin_cases k <;> (simp only [dot, cross, vec]; simp; ring)

theorem cross_sq (a d : V3 ℝ) : dot (cross d a) (cross d a) = dot d d * dot a a - dot d a ^ 2 := by
  simp only [dot, cross, vec]; ring

theorem cross_dot (a d : V3 ℝ) : dot a (cross d a) = 0 ∧ dot d (cross d a) = 0 := by
  constructor <;> (simp only [dot, cross, vec]; ring)

/-- The directions of an atom are orthonormal and span the motions that the constraint allows. -/
theorem directions_spec {c : Constraint} {l : List (V3 ℝ)} (h : directions c = .ok (some (l.map some))) :
    (∀ n ∈ l, dot n n = 1) ∧ l.Pairwise (fun n m => dot n m = 0) ∧ ∀ v k, c.apply v k = (l.map fun n => dot v n * n k).sum := by
  unfold directions at h
  split at h
  · exact absurd (Except.ok.inj h) (by simp)
  · rename_i hm
    unfold Constraint.apply
    simp only [if_neg hm]
    split at h
    · rename_i ht
      have h := Option.some.inj (Except.ok.inj h)
      have : l = [vec 1 0 0, vec 0 1 0, vec 0 0 1] := by
        obtain ⟨x, y, z, rfl⟩ := List.length_eq_three.1 (show l.length = 3 by simpa using (congrArg List.length h).symm)
        simp only [List.map_cons, List.map_nil, List.cons.injEq, Option.some.injEq, and_true] at h
        rw [h.1, h.2.1, h.2.2]
      subst this
      rw [ht]
      refine ⟨by simp [dot, vec], by simp [dot, vec], ?_⟩
      intro v k
      fin_cases k <;> simp [dot, vec]
    · rename_i ht
      have h := Option.some.inj (Except.ok.inj h)
      obtain ⟨a, b, rfl⟩ := List.length_eq_two.1 (show l.length = 2 by simpa using (congrArg List.length h).symm)
      · simp only [List.map_cons, List.map_nil, List.cons.injEq, and_true] at h
        obtain ⟨ha, hb⟩ := h
        rw [ht]
        have hA := (normalized_eq ha).1
        have hB := (normalized_eq hb).1
        have hd : dot c.d c.d ≠ 0 := by
          intro h0
          have h0' : ∀ k, c.d k = 0 := by
            have : c.d 0 * c.d 0 + c.d 1 * c.d 1 + c.d 2 * c.d 2 = 0 := h0
            intro k
            fin_cases k <;> (simp only [Fin.zero_eta, Fin.mk_one, Fin.reduceFinMk]; nlinarith [mul_self_nonneg (c.d 0), mul_self_nonneg (c.d 1), mul_self_nonneg (c.d 2)])
          apply hB
          simp [dot, cross, vec, h0']
        have hp := planarA_perp hd
        refine ⟨?_, ?_, ?_⟩
        · intro n hn
          simp only [List.mem_cons, List.not_mem_nil, or_false] at hn
          rcases hn with rfl | rfl
          · exact normalized_unit ha
          · exact normalized_unit hb
        · simp only [List.pairwise_cons, List.mem_singleton, forall_eq, List.not_mem_nil, false_imp_iff, implies_true, List.Pairwise.nil, and_true]
          rw [normalized_dot hb, dot_comm', normalized_dot ha, dot_comm', (cross_dot _ _).1, zero_div, zero_div]
        · intro v k
          simp only [List.map_cons, List.map_nil, List.sum_cons, List.sum_nil, add_zero]
          rw [normalized_proj ha, normalized_proj hb]
          have h1 := cross_frame (planarA c.d) c.d v k
          have h2 := cross_sq (planarA c.d) c.d
          rw [hp] at h1 h2
          have h3 : dot (cross c.d (planarA c.d)) (cross c.d (planarA c.d)) = dot c.d c.d * dot (planarA c.d) (planarA c.d) := by rw [h2]; ring
          rw [h3] at h1 ⊢
          generalize dot (planarA c.d) (planarA c.d) = A at hA h1 ⊢
          generalize dot c.d c.d = D at hd h1 ⊢
          have h4 : v k = (dot v (cross c.d (planarA c.d)) * cross c.d (planarA c.d) k + dot v (planarA c.d) * D * planarA c.d k + dot v c.d * A * c.d k) / (D * A) := by
            rw [eq_div_iff (mul_ne_zero hd hA)]; linarith
          rw [h4]
          field_simp
          ring
    · rename_i ht
      have h := Option.some.inj (Except.ok.inj h)
      obtain ⟨a, rfl⟩ := List.length_eq_one_iff.1 (show l.length = 1 by simpa using (congrArg List.length h).symm)
      · simp only [List.map_cons, List.map_nil, List.cons.injEq, and_true] at h
        rw [ht]
        refine ⟨?_, by simp, ?_⟩
        · intro n hn
          rw [List.mem_singleton.1 hn]
          exact normalized_unit h
        · intro v k
          simp only [List.map_cons, List.map_nil, List.sum_cons, List.sum_nil, add_zero]
          rw [normalized_proj h]
    · exact absurd h (by simp)

theorem directions_none {c : Constraint} (h : directions c = .ok none) : c.moveScale = 0 := by
  unfold directions at h
  split at h
  · assumption
  · split at h <;> simp at h

theorem directions_some {c : Constraint} {l} (h : directions c = .ok (some l)) : c.moveScale ≠ 0 := by
  unfold directions at h
  split at h
  · simp at h
  · assumption

theorem orth_surj {M : Mat ℝ} (h : ∀ v w, dot (mulMV M v) (mulMV M w) = dot v w) (w : V3 ℝ) : ∃ v, mulMV M v = w := by
  have e : ∀ v, mulMV M v = (Matrix.of M).mulVec v := fun v => mulMV_eq M v
  have h1 : (Matrix.of M).transpose * Matrix.of M = 1 := by
    ext i j
    have := h (fun k => if k = i then 1 else 0) (fun k => if k = j then 1 else 0)
    simp only [Matrix.mul_apply, Matrix.transpose_apply, Matrix.of_apply, Matrix.one_apply, Fin.sum_univ_three]
    fin_cases i <;> fin_cases j <;> simpa [dot, mulMV] using this
  have h2 : Matrix.of M * (Matrix.of M).transpose = 1 := mul_eq_one_comm.1 h1
  refine ⟨(Matrix.of M).transpose.mulVec w, ?_⟩
  rw [e, Matrix.mulVec_mulVec, h2, Matrix.one_mulVec]

theorem list_finset_comm {α ι : Type*} (l : List α) (s : Finset ι) (f : α → ι → ℝ) : (l.map fun a => ∑ i ∈ s, f a i).sum = ∑ i ∈ s, (l.map fun a => f a i).sum := by
  induction l with
  | nil => simp
  | cons a l ih => simp [ih, Finset.sum_add_distrib]

theorem mulMV_list (M : Mat ℝ) (l : List (V3 ℝ)) (f : V3 ℝ → ℝ) (k : Fin 3) : mulMV M (fun k => (l.map fun n => f n * n k).sum) k = (l.map fun n => f n * mulMV M n k).sum := by
  induction l with
  | nil => simp [mulMV]
  | cons a l ih =>
    simp only [List.map_cons, List.sum_cons, ← ih]
    simp only [mulMV]; ring

/-- Expansion of a direction in the images of the directions of a symmetric atom. -/
theorem frame {o : Sym N ns} (g : Group o) {c : Fin N → Constraint} (hc : Covariant o c) {dirs : Fin N → Option (List (V3 ℝ))} (hd : ∀ a, directions (c a) = .ok ((dirs a).map (List.map some)))
    (p : Fin N) (r : Fin ns) (m : V3 ℝ) (hm : m ∈ (dirs (o.amap p r)).getD []) (k : Fin 3) :
    (((dirs p).getD []).map fun n => dot (mulMV (rot o r) n) m * mulMV (rot o r) n k).sum = m k := by
  cases h1 : dirs (o.amap p r) with
  | none => rw [h1] at hm; simp at hm
  | some l1 =>
    rw [h1, Option.getD_some] at hm
    have hd1 := hd (o.amap p r)
    rw [h1, Option.map_some] at hd1
    have hne : (c p).moveScale ≠ 0 := fun h => directions_some hd1 ((hc.1 p r).2 h)
    cases h2 : dirs p with
    | none =>
      have := hd p
      rw [h2, Option.map_none] at this
      exact absurd (directions_none this) hne
    | some l =>
      have hd2 := hd p
      rw [h2, Option.map_some] at hd2
      obtain ⟨hu, hpw, hs⟩ := directions_spec hd1
      obtain ⟨_, _, hs2⟩ := directions_spec hd2
      rw [Option.getD_some]
      obtain ⟨v, hv⟩ := orth_surj (g.orth r) m
      have h3 := congrFun (hc.2 p r v) k
      have h4 : (c p).apply v = fun k => (l.map fun n => dot v n * n k).sum := funext (hs2 v)
      rw [hv, h4, mulMV_list, hs] at h3
      have e1 : (l1.map fun n => dot m n * n k).sum = m k := by
        have : ∀ l1 : List (V3 ℝ), (∀ n ∈ l1, dot n n = 1) → l1.Pairwise (fun n m => dot n m = 0) →
            ((∀ n ∈ l1, dot m n = 0) → (l1.map fun n => dot m n * n k).sum = 0) ∧ (m ∈ l1 → (l1.map fun n => dot m n * n k).sum = m k) := by
          intro l1 hu hpw
          induction l1 with
          | nil => simp
          | cons a l1 ih =>
            have hpw' := List.pairwise_cons.1 hpw
            have ih := ih (fun n hn => hu n (List.mem_cons_of_mem _ hn)) hpw'.2
            refine ⟨?_, ?_⟩
            · intro h0
              rw [List.map_cons, List.sum_cons, ih.1 (fun n hn => h0 n (List.mem_cons_of_mem _ hn)), h0 a (List.mem_cons_self ..)]
              ring
            · intro hm
              rw [List.map_cons, List.sum_cons]
              rcases List.mem_cons.1 hm with hm | hm
              · subst hm
                rw [ih.1 hpw'.1, hu m (List.mem_cons_self ..)]
                ring
              · rw [ih.2 hm, dot_comm', hpw'.1 m hm]
                ring
        exact (this l1 hu hpw).2 hm
      rw [← e1, h3]
      congr 1
      refine List.map_congr_left fun n _ => ?_
      rw [← g.orth r v n, hv, dot_comm']

/-- Sums over measured modes and symmetries that contribute to one mode. -/
theorem weighted {o : Sym N ns} (g : Group o) {c : Fin N → Constraint} (hc : Covariant o c) {dirs : Fin N → Option (List (V3 ℝ))} (hd : ∀ a, directions (c a) = .ok ((dirs a).map (List.map some)))
    {thr : ℝ} (hr : Resolved o thr dirs) (isP isT : Fin N → Bool) (m1 : Mode N) (hm : m1.n ∈ (dirs m1.atom).getD []) (val : Mode N → Fin ns → ℝ) (F : V3 ℝ → ℝ)
    (hF : ∀ v : V3 ℝ, F v = v 0 * F (vec 1 0 0) + v 1 * F (vec 0 1 0) + v 2 * F (vec 0 0 1))
    (hv : ∀ m : Mode N, ∀ r, o.amap m.atom r = m1.atom → val m r = F (mulMV (rot o r) m.n)) :
    ((((List.finRange N).flatMap (block dirs isP isT)).filter (·.isPrimary)).map fun q => ∑ r, open Classical in if used o thr q m1 r then weight o q m1 r * val q r else 0).sum
      = (∑ p, if isP p then ∑ r, if o.amap p r = m1.atom then (1 : ℝ) else 0 else 0) * F m1.n := by
  rw [sum_primary, Finset.sum_mul]
  refine Finset.sum_congr rfl fun p _ => ?_
  split
  · rw [list_finset_comm, Finset.sum_mul]
    refine Finset.sum_congr rfl fun r _ => ?_
    by_cases ha : o.amap p r = m1.atom
    · rw [if_pos ha, one_mul]
      have hm' := hm
      rw [← ha] at hm'
      have e : (((dirs p).getD []).map fun n => open Classical in if used o thr (⟨p, n, isP p, isT p⟩ : Mode N) m1 r then weight o ⟨p, n, isP p, isT p⟩ m1 r * val ⟨p, n, isP p, isT p⟩ r else 0)
          = ((dirs p).getD []).map fun n => dot (mulMV (rot o r) n) m1.n * F (mulMV (rot o r) n) := by
        refine List.map_congr_left fun n hn => ?_
        rw [hv _ r ha]
        split
        · rfl
        · rename_i hu
          have : |dot (mulMV (rot o r) n) m1.n| < thr := by
            by_contra h
            exact hu ⟨ha.symm, h⟩
          rw [hr p r n hn m1.n hm' this, zero_mul]
      rw [e, hF m1.n, ← frame g hc hd p r m1.n hm' 0, ← frame g hc hd p r m1.n hm' 1, ← frame g hc hd p r m1.n hm' 2]
      generalize (dirs p).getD [] = l
      generalize hm1 : m1.n = v
      clear e hm' hm hm1
      induction l with
      | nil => simp
      | cons n l ih =>
        simp only [List.map_cons, List.sum_cons, ih]
        rw [hF (mulMV (rot o r) n)]
        ring
    · rw [if_neg ha, zero_mul]
      have : ∀ l : List (V3 ℝ), (l.map fun n => open Classical in if used o thr (⟨p, n, isP p, isT p⟩ : Mode N) m1 r then weight o ⟨p, n, isP p, isT p⟩ m1 r * val ⟨p, n, isP p, isT p⟩ r else 0).sum = 0 := by
        intro l
        have h0 : ∀ n, ¬used o thr (⟨p, n, isP p, isT p⟩ : Mode N) m1 r := fun n hu => ha hu.1.symm
        simp [h0]
      exact this _
  · rw [zero_mul]

theorem dot_linear (w v : V3 ℝ) : dot v w = v 0 * dot (vec 1 0 0) w + v 1 * dot (vec 0 1 0) w + v 2 * dot (vec 0 0 1) w := by simp [dot, vec]

/-- Rows that are set from translations. -/
theorem fill_spec {m C : ℕ} (modes : Fin m → Mode N) (K H : Fin m → Fin C → ℝ) (h0 : ∀ i c, K i c = if (modes i).fromTranslation then 0 else H i c)
    (ho : ∀ i j, (modes i).fromTranslation = true → (modes j).fromTranslation = true → i ≠ j → dot (modes i).n (modes j).n = 0) (hu : ∀ i, (modes i).fromTranslation = true → dot (modes i).n (modes i).n = 1)
    (hs : ∀ i, (modes i).fromTranslation = true → ∀ c, ∑ j, dot (modes i).n (modes j).n * H j c = 0) : fillTranslation modes K = H := by
  have key : ∀ (l L : List (Fin m)) (K : Fin m → Fin C → ℝ), (L ++ l).Nodup → (∀ i c, K i c = if (modes i).fromTranslation = true ∧ i ∉ L then 0 else H i c) →
      ∀ i c, (l.foldl (fun (K : Fin m → Fin C → ℝ) i1 => if (modes i1).fromTranslation then Function.update K i1 fun c => -∑ i2, dot (modes i1).n (modes i2).n * K i2 c else K) K) i c
        = if (modes i).fromTranslation = true ∧ i ∉ L ++ l then 0 else H i c := by
    intro l
    induction l with
    | nil => intro L K _ h; simpa using h
    | cons a l ih =>
      intro L K hnd h
      rw [List.foldl_cons]
      have ha : a ∉ L := fun hh => (List.nodup_append.1 hnd).2.2 a hh a (List.mem_cons_self ..) rfl
      have := ih (L ++ [a]) (if (modes a).fromTranslation then Function.update K a fun c => -∑ i2, dot (modes a).n (modes i2).n * K i2 c else K) (by simpa using hnd) ?_
      · simpa using this
      · intro i c
        cases hT : (modes a).fromTranslation with
        | true =>
          rw [if_pos rfl]
          by_cases hia : i = a
          · subst hia
            rw [Function.update_self, if_neg (by simp)]
            have hsi := hs i hT c
            rw [← Finset.add_sum_erase _ _ (Finset.mem_univ i)] at hsi ⊢
            rw [hu i hT, one_mul] at hsi
            rw [h i c, if_pos ⟨hT, ha⟩, mul_zero, zero_add]
            have e : ∑ x ∈ Finset.univ.erase i, dot (modes i).n (modes x).n * K x c = ∑ x ∈ Finset.univ.erase i, dot (modes i).n (modes x).n * H x c := by
              refine Finset.sum_congr rfl fun x hx => ?_
              cases hTx : (modes x).fromTranslation with
              | true => rw [ho i x hT hTx (Finset.ne_of_mem_erase hx).symm, zero_mul, zero_mul]
              | false => rw [h x c, if_neg (by simp [hTx])]
            rw [e]; linarith
          · rw [Function.update_of_ne hia, h i c]
            simp [hia]
        | false =>
          rw [if_neg (by simp), h i c]
          by_cases hia : i = a
          · subst hia; simp [hT]
          · simp [hia]
  have := key (List.finRange m) [] K (by simpa using List.nodup_finRange m) (by intro i c; rw [h0]; simp)
  funext i c
  show (List.finRange m).foldl _ K i c = _
  rw [this i c, if_neg]
  simp

/-- Modes of the same atom are orthogonal. -/
theorem modes_pairwise (dirs : Fin N → Option (List (V3 ℝ))) (isP isT : Fin N → Bool) (h : ∀ a, ((dirs a).getD []).Pairwise fun n m => dot n m = 0) :
    ((List.finRange N).flatMap (block dirs isP isT)).Pairwise fun m m' => m.atom = m'.atom → dot m.n m'.n = 0 := by
  rw [List.pairwise_flatMap]
  refine ⟨?_, ?_⟩
  · intro a _
    rw [block, List.pairwise_map]
    refine (h a).imp ?_
    intro x y hh _
    exact hh
  · refine (List.nodup_finRange N).imp ?_
    intro a b hab x hx y hy e
    obtain ⟨n, _, rfl⟩ := List.mem_map.1 hx
    obtain ⟨n', _, rfl⟩ := List.mem_map.1 hy
    exact absurd e hab

end
end Jdftx.Vib
