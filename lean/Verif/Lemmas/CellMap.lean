import Verif.Spec.CellMap
import Verif.Lemmas.Mat3
import Verif.Lemmas.Res
import Mathlib.LinearAlgebra.Matrix.NonsingularInverse
import Mathlib.Algebra.BigOperators.Fin
import Mathlib.Algebra.BigOperators.Field
import Mathlib.Tactic.Linarith

/-!
# Lemmas for C57
-/
namespace Jdftx.CellMap
noncomputable section
open M3

section norm
variable (eq : Box.IV → Box.IV → Bool) (tol : ℝ) (n1 n2 N : Nat) (c : Nat → Box.IV) (w : Nat → Nat → Nat → ℝ)

/-- Sum over the class of position `n`. -/
def T (n i j : Nat) : ℝ := ∑ m ∈ (Finset.range N).filter (fun m => eq (c m) (c n) = true), w m i j

def mk (w' : Nat → Nat → Nat → ℝ) : List Entry := (List.range N).map fun m => ⟨c m, w' m⟩

theorem mk_get (w' : Nat → Nat → Nat → ℝ) (n : Nat) : (mk N c w')[n]? = if n < N then some ⟨c n, w' n⟩ else none := by
  unfold mk
  by_cases h : n < N
  · rw [if_pos h, List.getElem?_map, List.getElem?_range h]; rfl
  · rw [if_neg h, List.getElem?_map, List.getElem?_eq_none (by simpa using h)]; rfl

theorem mk_length (w' : Nat → Nat → Nat → ℝ) : (mk N c w').length = N := by simp [mk]

open Classical in
/-- Invariant of the normalisation loop. -/
structure Inv (p : Nat) (s : St) : Prop where
  map : s.map = mk N c (fun m i j => if ∃ r < p, eq (c m) (c r) = true then 1 / T eq N c w m i j * w m i j else w m i j)
  done : ∀ m < N, (s.done.contains (c m) = true ↔ ∃ r < p, r < m ∧ eq (c m) (c r) = true)
  cond : ∀ r < p, ∀ i < n1, ∀ j < n2, tol < T eq N c w r i j

variable (hinj : ∀ m < N, ∀ m' < N, c m = c m' → m = m')
  (hrefl : ∀ a, eq a a = true) (hsymm : ∀ a b, eq a b = true → eq b a = true)
  (htrans : ∀ a b d, eq a b = true → eq b d = true → eq a d = true)

include hsymm htrans in
theorem T_congr (m n i j : Nat) (h : eq (c m) (c n) = true) : T eq N c w m i j = T eq N c w n i j := by
  unfold T
  congr 1
  apply Finset.filter_congr
  intro a _
  exact ⟨fun h' => htrans _ _ _ h' h, fun h' => htrans _ _ _ h' (hsymm _ _ h)⟩

include hinj hrefl hsymm htrans in
theorem step_inv (p : Nat) (hp : p < N) (s : St) (hs : Inv eq tol n1 n2 N c w p s) :
    (∃ s', step eq tol n1 n2 s p = .ok s' ∧ Inv eq tol n1 n2 N c w (p+1) s') ∨
    (step eq tol n1 n2 s p = .error .die ∧ ¬ ∀ i < n1, ∀ j < n2, tol < T eq N c w p i j) := by
  classical
  have hget := mk_get N c (fun m i j => if ∃ r < p, eq (c m) (c r) = true then 1 / T eq N c w m i j * w m i j else w m i j)
  unfold step
  rw [hs.map, hget, if_pos hp]
  simp only
  by_cases hd : s.done.contains (c p) = true
  · left
    rw [if_pos hd]
    obtain ⟨r, hr, _, hre⟩ := (hs.done p hp).1 hd
    have hex : ∀ m, (∃ r < p + 1, eq (c m) (c r) = true) ↔ ∃ r < p, eq (c m) (c r) = true := by
      intro m
      constructor
      · rintro ⟨r', hr', h⟩
        rcases Nat.lt_succ_iff_lt_or_eq.1 hr' with h1 | rfl
        · exact ⟨r', h1, h⟩
        · exact ⟨r, hr, htrans _ _ _ h hre⟩
      · rintro ⟨r', hr', h⟩; exact ⟨r', by omega, h⟩
    refine ⟨s, rfl, ?_, ?_, ?_⟩
    · rw [hs.map]; simp only [hex]
    · intro m hm
      rw [hs.done m hm]
      constructor
      · rintro ⟨r', h1, h2, h3⟩; exact ⟨r', by omega, h2, h3⟩
      · rintro ⟨r', h1, h2, h3⟩
        rcases Nat.lt_succ_iff_lt_or_eq.1 h1 with h4 | rfl
        · exact ⟨r', h4, h2, h3⟩
        · exact ⟨r, hr, by omega, htrans _ _ _ h3 hre⟩
    · intro r' hr' i hi j hj
      rcases Nat.lt_succ_iff_lt_or_eq.1 hr' with h1 | rfl
      · exact hs.cond r' h1 i hi j hj
      · rw [T_congr eq N c w hsymm htrans _ r i j hre]; exact hs.cond r hr i hi j hj
  · rw [if_neg hd]
    have hnone : ∀ m, eq (c m) (c p) = true → ¬ ∃ r < p, eq (c m) (c r) = true := by
      rintro m hm ⟨r, hr, hre⟩
      exact hd ((hs.done p hp).2 ⟨r, hr, hr, htrans _ _ _ (hsymm _ _ hm) hre⟩)
    set l := equivs eq s p (c p) with hl
    have hmeml : ∀ m, m ∈ l ↔ m < N ∧ eq (c m) (c p) = true := by
      intro m
      rw [hl, equivs, List.mem_cons, List.mem_filter, hs.map, mk_length, List.mem_range]
      constructor
      · rintro (rfl | ⟨hm, h⟩)
        · exact ⟨hp, hrefl _⟩
        · refine ⟨hm, ?_⟩
          rw [hget, if_pos hm] at h
          simp only [Bool.and_eq_true] at h
          exact h.2.2
      · rintro ⟨hm, h⟩
        rcases Nat.lt_trichotomy m p with h1 | h1 | h1
        · exact absurd ⟨m, h1, hrefl _⟩ (hnone m h)
        · exact Or.inl h1
        · right
          refine ⟨hm, ?_⟩
          rw [hget, if_pos hm]
          simp only [Bool.and_eq_true, decide_eq_true_eq, Bool.not_eq_true']
          refine ⟨h1, ?_, h⟩
          rw [Bool.eq_false_iff]
          intro hc
          obtain ⟨r, hr, _, hre⟩ := (hs.done m hm).1 hc
          exact hnone m h ⟨r, hr, hre⟩
    have hnd : l.Nodup := by
      rw [hl, equivs, List.nodup_cons]
      refine ⟨?_, List.Nodup.filter _ List.nodup_range⟩
      rw [List.mem_filter]
      rintro ⟨_, h⟩
      simp at h
    have hsum : ∀ i j, wSum s l i j = T eq N c w p i j := by
      intro i j
      unfold wSum T
      rw [← List.sum_toFinset _ hnd]
      have : l.toFinset = (Finset.range N).filter (fun m => eq (c m) (c p) = true) := by
        ext m; rw [List.mem_toFinset, hmeml, Finset.mem_filter, Finset.mem_range]
      rw [this]
      apply Finset.sum_congr rfl
      intro m hm
      rw [Finset.mem_filter, Finset.mem_range] at hm
      rw [hs.map, hget, if_pos hm.1]
      simp only
      rw [if_neg (hnone m hm.2)]
    by_cases hc : ∀ i < n1, ∀ j < n2, tol < T eq N c w p i j
    · left
      rw [if_pos (by intro i hi j hj; rw [hsum]; exact hc i hi j hj)]
      have hex : ∀ m, (∃ r < p + 1, eq (c m) (c r) = true) ↔ (∃ r < p, eq (c m) (c r) = true) ∨ eq (c m) (c p) = true := by
        intro m
        constructor
        · rintro ⟨r', hr', h⟩
          rcases Nat.lt_succ_iff_lt_or_eq.1 hr' with h1 | rfl
          · exact Or.inl ⟨r', h1, h⟩
          · exact Or.inr h
        · rintro (⟨r', hr', h⟩ | h)
          · exact ⟨r', by omega, h⟩
          · exact ⟨p, by omega, h⟩
      refine ⟨_, rfl, ?_, ?_, ?_⟩
      · simp only
        apply List.ext_getElem?
        intro n
        rw [List.getElem?_mapIdx, hget, mk_get]
        by_cases hn : n < N
        · rw [if_pos hn, if_pos hn]
          simp only [Option.map_some, Option.some.injEq]
          by_cases hm : n ∈ l
          · rw [if_pos hm]
            have h2 := ((hmeml n).1 hm).2
            congr 1
            funext i j
            rw [if_neg (hnone n h2), if_pos ((hex n).2 (Or.inr h2)), hsum, T_congr eq N c w hsymm htrans n p i j h2]
          · rw [if_neg hm]
            have h2 : ¬ eq (c n) (c p) = true := fun h => hm ((hmeml n).2 ⟨hn, h⟩)
            congr 1
            funext i j
            have : (∃ r < p + 1, eq (c n) (c r) = true) ↔ (∃ r < p, eq (c n) (c r) = true) := by rw [hex]; exact or_iff_left h2
            simp only [this]
        · rw [if_neg hn, if_neg hn]; rfl
      · intro m hm
        simp only
        rw [List.contains_iff_mem, List.mem_append, ← List.contains_iff_mem (as := s.done), hs.done m hm]
        have htail : c m ∈ (l.tail.filterMap fun m' => ((mk N c fun m i j => if ∃ r < p, eq (c m) (c r) = true then 1 / T eq N c w m i j * w m i j else w m i j)[m']?).map Entry.cell) ↔ p < m ∧ eq (c m) (c p) = true := by
          rw [List.mem_filterMap]
          have ht : ∀ m', m' ∈ l.tail ↔ m' ∈ l ∧ p < m' := by
            intro m'
            rw [hl, equivs, List.tail_cons, List.mem_cons]
            constructor
            · intro h
              refine ⟨Or.inr h, ?_⟩
              have := (List.mem_filter.1 h).2
              rw [Bool.and_eq_true] at this
              exact of_decide_eq_true this.1
            · rintro ⟨rfl | h, h'⟩
              · omega
              · exact h
          constructor
          · rintro ⟨m', hm', h⟩
            have h3 := (ht m').1 hm'
            have h4 := (hmeml m').1 h3.1
            rw [hget, if_pos h4.1] at h
            simp only [Option.map_some, Option.some.injEq] at h
            have := hinj m' h4.1 m hm h
            subst this
            exact ⟨h3.2, h4.2⟩
          · rintro ⟨h3, h4⟩
            refine ⟨m, (ht m).2 ⟨(hmeml m).2 ⟨hm, h4⟩, h3⟩, ?_⟩
            rw [hget, if_pos hm]; rfl
        rw [htail]
        constructor
        · rintro (⟨r, h1, h2, h3⟩ | ⟨h1, h2⟩)
          · exact ⟨r, by omega, h2, h3⟩
          · exact ⟨p, by omega, h1, h2⟩
        · rintro ⟨r, h1, h2, h3⟩
          rcases Nat.lt_succ_iff_lt_or_eq.1 h1 with h4 | rfl
          · exact Or.inl ⟨r, h4, h2, h3⟩
          · exact Or.inr ⟨h2, h3⟩
      · intro r' hr'
        rcases Nat.lt_succ_iff_lt_or_eq.1 hr' with h1 | rfl
        · exact hs.cond r' h1
        · exact hc
    · right
      rw [if_neg (by intro h; exact hc fun i hi j hj => by rw [← hsum]; exact h i hi j hj)]
      exact ⟨rfl, hc⟩

include hinj hrefl hsymm htrans in
theorem norm_inv : ∀ p ≤ N,
    (∃ s', (List.range p).foldlM (step eq tol n1 n2) ⟨mk N c w, []⟩ = .ok s' ∧ Inv eq tol n1 n2 N c w p s') ∨
    ((List.range p).foldlM (step eq tol n1 n2) ⟨mk N c w, []⟩ = .error .die ∧ ¬ ∀ r < p, ∀ i < n1, ∀ j < n2, tol < T eq N c w r i j) := by
  intro p
  induction p with
  | zero =>
    intro _
    left
    refine ⟨_, rfl, ?_, ?_, ?_⟩
    · simp
    · intro m _; simp
    · intro r hr; omega
  | succ p ih =>
    intro hp
    rw [List.range_succ, List.foldlM_append]
    rcases ih (by omega) with ⟨s', h1, h2⟩ | ⟨h1, h2⟩
    · rw [h1, Res.bind_ok, List.foldlM_cons]
      rcases step_inv eq tol n1 n2 N c w hinj hrefl hsymm htrans p (by omega) s' h2 with ⟨s'', h3, h4⟩ | ⟨h3, h4⟩
      · rw [h3, Res.bind_ok]
        exact Or.inl ⟨s'', rfl, h4⟩
      · rw [h3, Res.bind_error]
        exact Or.inr ⟨rfl, fun h => h4 (h p (by omega))⟩
    · rw [h1, Res.bind_error]
      exact Or.inr ⟨rfl, fun h => h2 fun r hr => h r (by omega)⟩

include hinj hrefl hsymm htrans in
/-- The result of the normalisation. -/
theorem normalise_eq :
    (∃ d, normalise eq tol n1 n2 (mk N c w) = .ok ⟨mk N c (fun m i j => 1 / T eq N c w m i j * w m i j), d⟩ ∧
      ∀ r < N, ∀ i < n1, ∀ j < n2, tol < T eq N c w r i j) ∨
    (normalise eq tol n1 n2 (mk N c w) = .error .die ∧ ¬ ∀ r < N, ∀ i < n1, ∀ j < n2, tol < T eq N c w r i j) := by
  unfold normalise
  rw [mk_length]
  rcases norm_inv eq tol n1 n2 N c w hinj hrefl hsymm htrans N le_rfl with ⟨s', h1, h2⟩ | h
  · left
    refine ⟨s'.done, ?_, h2.cond⟩
    rw [h1]
    congr 1
    cases s' with
    | mk map done =>
      congr 1
      have := h2.map
      simp only at this
      rw [this]
      unfold mk
      apply List.map_congr_left
      intro m hm
      congr 1
      funext i j
      exact if_pos ⟨m, List.mem_range.1 hm, hrefl _⟩
  · exact Or.inr h

end norm

theorem inv_eq (m : Mat ℝ) : Matrix.of (Basis.inv m) = (Matrix.of m)⁻¹ := by
  rw [Matrix.inv_def, Ring.inverse_eq_inv', ← det_eq, ← adjugate_eq, Basis.inv, smul_eq, one_div]

theorem inv_mul (m : Mat ℝ) (h : det m ≠ 0) (v : V3 ℝ) : mulMV (Basis.inv m) (mulMV m v) = v := by
  rw [mulMV_eq, mulMV_eq, inv_eq, Matrix.mulVec_mulVec, Matrix.nonsing_inv_mul _ (by rw [← det_eq]; exact h.isUnit), Matrix.one_mulVec]

theorem mul_inv (m : Mat ℝ) (h : det m ≠ 0) (v : V3 ℝ) : mulMV m (mulMV (Basis.inv m) v) = v := by
  rw [mulMV_eq, mulMV_eq, inv_eq, Matrix.mulVec_mulVec, Matrix.mul_nonsing_inv _ (by rw [← det_eq]; exact h.isUnit), Matrix.one_mulVec]

theorem mulMM_MV (m n : Mat ℝ) (v : V3 ℝ) : mulMV (mulMM m n) v = mulMV m (mulMV n v) := by
  rw [mulMV_eq, mulMV_eq, mulMV_eq, mulMM_eq, Matrix.mulVec_mulVec]

theorem cast_mulMV (M : Mat Int) (n : V3 Int) : mulMV (castMat M : Mat ℝ) (fun i => (n i : ℝ)) = fun i => ((mulMV M n i : ℤ) : ℝ) := by
  funext i; simp only [mulMV, castMat]; push_cast; ring

theorem det_cast (M : Mat Int) : det (castMat M : Mat ℝ) = ((det M : ℤ) : ℝ) := by
  simp only [det, box, dot, cross, row, vec, castMat]; push_cast; ring

theorem roundErr_lt (v : V3 ℝ) (t : ℝ) (h : roundErr v < t) (i : Fin 3) : |v i - (round (v i) : ℤ)| < t := by
  refine lt_of_le_of_lt ?_ h
  unfold roundErr Basis.length
  apply Real.le_sqrt_of_sq_le
  rw [sq_abs]
  have h0 := mul_self_nonneg (v 0 - (round (v 0) : ℤ))
  have h1 := mul_self_nonneg (v 1 - (round (v 1) : ℤ))
  have h2 := mul_self_nonneg (v 2 - (round (v 2) : ℤ))
  match i with
  | 0 => nlinarith
  | 1 => nlinarith
  | 2 => nlinarith

/-- The test for equivalent cells is exact. -/
theorem equivB_iff (p : Inp) (M : Mat Int) (D : Int) (hp : Super p M D) (c' c : Box.IV) : equivB p c' c = true ↔ SameClass M c c' := by
  have hsupdet : det p.Rsup ≠ 0 := by
    rw [hp.sup, det_eq, mulMM_eq, Matrix.det_mul, ← det_eq, ← det_eq, det_cast]
    exact mul_ne_zero hp.unit (by exact_mod_cast hp.super)
  unfold equivB
  rw [decide_eq_true_eq, mulMM_MV]
  set d : V3 Int := vec (c'.x - c.x) (c'.y - c.y) (c'.z - c.z) with hd
  have hdv : toV ⟨c'.x - c.x, c'.y - c.y, c'.z - c.z⟩ = fun i => (d i : ℝ) := by
    funext i
    match i with
    | 0 => rfl
    | 1 => rfl
    | 2 => rfl
  rw [hdv]
  have hcl : SameClass M c c' ↔ ∃ n : V3 Int, mulMV M n = d := by
    unfold SameClass
    constructor
    · rintro ⟨n, h0, h1, h2⟩
      refine ⟨n, ?_⟩
      funext i
      match i with
      | 0 => show _ = c'.x - c.x; omega
      | 1 => show _ = c'.y - c.y; omega
      | 2 => show _ = c'.z - c.z; omega
    · rintro ⟨n, h⟩
      refine ⟨n, ?_, ?_, ?_⟩
      · rw [h]; show _ = c.x + (c'.x - c.x); omega
      · rw [h]; show _ = c.y + (c'.y - c.y); omega
      · rw [h]; show _ = c.z + (c'.z - c.z); omega
  rw [hcl]
  set v := mulMV (Basis.inv p.Rsup) (mulMV p.R fun i => (d i : ℝ)) with hv
  have hMv : mulMV (castMat M) v = fun i => (d i : ℝ) := by
    have h1 : mulMV p.Rsup v = mulMV p.R fun i => (d i : ℝ) := mul_inv _ hsupdet _
    rw [hp.sup, mulMM_MV] at h1
    have := congrArg (mulMV (Basis.inv p.R)) h1
    rwa [inv_mul _ hp.unit, inv_mul _ hp.unit] at this
  constructor
  · intro h
    refine ⟨fun i => round (v i), ?_⟩
    obtain ⟨A, hA⟩ := hp.denom
    have hA' : ∀ u : V3 ℝ, mulMV (castMat A) (mulMV (castMat M) u) = fun i => (D : ℝ) * u i := by
      intro u
      have hc : ∀ i j, mulMM A M i j = if i = j then D else 0 := by
        intro i j
        have := congrFun (hA fun k => if k = j then 1 else 0) i
        rw [mulMV_eq, mulMV_eq, Matrix.mulVec_mulVec, ← mulMM_eq] at this
        simp only [Matrix.mulVec, dotProduct, Matrix.of_apply, mul_ite, mul_one, mul_zero, Finset.sum_ite_eq', Finset.mem_univ, if_true] at this
        exact this
      have hc' : ∀ i j, mulMM (castMat A : Mat ℝ) (castMat M) i j = if i = j then (D : ℝ) else 0 := by
        intro i j
        have := hc i j
        have h2 : mulMM (castMat A : Mat ℝ) (castMat M) i j = ((mulMM A M i j : ℤ) : ℝ) := by simp only [mulMM, castMat]; push_cast; ring
        rw [h2, this]; split <;> simp
      rw [← mulMM_MV, mulMV_eq]
      funext i
      simp only [Matrix.mulVec, dotProduct, Matrix.of_apply, hc', ite_mul, zero_mul, Finset.sum_ite_eq, Finset.mem_univ, if_true]
    have hDv : (fun i => (D : ℝ) * v i) = fun i => ((mulMV A d i : ℤ) : ℝ) := by
      rw [← hA', hMv, cast_mulMV]
    have hint : ∀ i, v i = (round (v i) : ℤ) := by
      intro i
      have h1 := roundErr_lt v _ h i
      have hD : (0 : ℝ) < D := by exact_mod_cast hp.pos
      have h2 : |(D : ℝ) * v i - D * (round (v i) : ℤ)| < 1 := by
        rw [← mul_sub, abs_mul, abs_of_pos hD]
        calc (D : ℝ) * |v i - (round (v i) : ℤ)| < D * p.tol := by exact mul_lt_mul_of_pos_left h1 hD
          _ ≤ 1 := by rw [mul_comm]; exact hp.tolD
      have h3 := congrFun hDv i
      rw [h3] at h2
      have h4 : |mulMV A d i - D * round (v i)| < 1 := by exact_mod_cast h2
      have h5 : mulMV A d i = D * round (v i) := by
        have := Int.abs_lt_one_iff.1 h4
        omega
      have h6 : (D : ℝ) * v i = D * ((round (v i) : ℤ) : ℝ) := by rw [h3, h5]; push_cast; ring
      exact mul_left_cancel₀ hD.ne' h6
    have h7 : (fun i => ((mulMV M (fun i => round (v i)) i : ℤ) : ℝ)) = fun i => (d i : ℝ) := by
      rw [← cast_mulMV, ← hMv]
      congr 1
      funext i; exact (hint i).symm
    funext i
    have := congrFun h7 i
    exact_mod_cast this
  · rintro ⟨n, hn⟩
    have hvn : v = fun i => (n i : ℝ) := by
      have h1 : mulMV p.Rsup (fun i => (n i : ℝ)) = mulMV p.R fun i => (d i : ℝ) := by
        rw [hp.sup, mulMM_MV, cast_mulMV, hn]
      rw [hv, ← h1, inv_mul _ hsupdet]
    rw [hvn]
    unfold roundErr Basis.length
    simp only [round_intCast, sub_self, mul_zero, add_zero, Real.sqrt_zero]
    exact hp.tol0

theorem same_refl (M : Mat Int) (c : Box.IV) : SameClass M c c := ⟨fun _ => 0, by simp [mulMV], by simp [mulMV], by simp [mulMV]⟩

theorem same_symm (M : Mat Int) (c c' : Box.IV) (h : SameClass M c c') : SameClass M c' c := by
  obtain ⟨n, h0, h1, h2⟩ := h
  refine ⟨fun i => -n i, ?_, ?_, ?_⟩ <;> rw [mulMV_neg] <;> simp only <;> omega

theorem same_trans (M : Mat Int) (a b c : Box.IV) (h : SameClass M a b) (h' : SameClass M b c) : SameClass M a c := by
  obtain ⟨n, h0, h1, h2⟩ := h
  obtain ⟨n', h0', h1', h2'⟩ := h'
  refine ⟨fun i => n i + n' i, ?_, ?_, ?_⟩ <;> rw [mulMV_add] <;> simp only <;> omega

end
end Jdftx.CellMap
