import Verif.Lemmas.VdwD3Sum

/-!
# Lemmas for C106: the specification in terms of the closed forms
-/
namespace Jdftx.D3
noncomputable section
open M3 Filter Topology Ewald

variable {n : Nat}

theorem neighbours_eq (p : Params n) (rc : ℝ) : neighbours p rc = cells (reach p rc) := rfl

theorem distance_eq (R : Mat ℝ) (pos : Fin n → V3 ℝ) (v : Fin 3 → Int) (a b : Fin n) :
    distance R pos v a b = Real.sqrt (table R pos v a b) := rfl

theorem table_nonneg (R : Mat ℝ) (pos : Fin n → V3 ℝ) (v : Fin 3 → Int) (a b : Fin n) : 0 ≤ table R pos v a b := WS.lenSq_nonneg _ _

theorem table_neg (R : Mat ℝ) (pos : Fin n → V3 ℝ) (v : Fin 3 → Int) (a b : Fin n) : table R pos (-v) a b = table R pos v b a := by
  unfold table; rw [D2.sep_neg, D2.lenSq_neg]

theorem skip_iff (R : Mat ℝ) (pos : Fin n → V3 ℝ) (v : Fin 3 → Int) (a b : Fin n) (rc : ℝ) (hrc : 0 < rc) :
    (distance R pos v a b = 0 ∨ rc < distance R pos v a b) ↔ ¬ (table R pos v a b ≠ 0 ∧ table R pos v a b ≤ rc * rc) := by
  rw [distance_eq, Real.sqrt_eq_zero (table_nonneg R pos v a b), Real.lt_sqrt hrc.le, not_and_or, not_not, not_le, sq]

/-- Sum over the half box with weights of a function symmetric under exchange of the atoms. -/
theorem half_pairs (N : Fin 3 → Nat) (F : Fin n → Fin n → (Fin 3 → Int) → ℝ) (h : ∀ a b v, F a b (-v) = F b a v) :
    ∑ a, ∑ b, ∑ v ∈ half N, D2.cellWeight v * F a b v = (1 / 2) * ∑ a, ∑ b, ∑ v ∈ cells N, F a b v := by
  have e2 := D2.half_full N (fun v => ∑ a, ∑ b, F a b v) (fun v => D2.even_of_swap F h v)
  have e3 : ∀ (s : Finset (Fin 3 → Int)) (G : Fin n → Fin n → (Fin 3 → Int) → ℝ),
      ∑ a, ∑ b, ∑ v ∈ s, G a b v = ∑ v ∈ s, ∑ a, ∑ b, G a b v := by
    intro s G
    rw [Finset.sum_comm' (s := s) (t := fun _ => Finset.univ) (t' := Finset.univ) (s' := fun _ => s) (by simp)]
    exact Finset.sum_congr rfl fun a _ => Finset.sum_comm
  rw [e3, e3, ← e2]
  refine Finset.sum_congr rfl fun v _ => ?_
  simp only [Finset.mul_sum]

theorem bareN_comm (p : Params n) (a b : Fin n) (s : ℝ) : bareN p a b s = bareN p b a s := by
  simp only [bareN, k2RcovSum, add_comm (p.atom a).k2Rcov]

theorem cnQ_eq (p : Params n) (pos : Fin n → V3 ℝ) (c : Fin n) :
    cnQ p (reach p rCutCN) (table p.R pos) c = coordination p pos c := by
  have e1 : cnQ p (reach p rCutCN) (table p.R pos) c = ∑ a, ∑ b, ∑ v ∈ half (reach p rCutCN),
      D2.cellWeight v * ((del c a + del c b) * bareN p a b (table p.R pos v a b)) := by
    unfold cnQ
    exact Finset.sum_congr rfl fun a _ => Finset.sum_congr rfl fun b _ => Finset.sum_congr rfl fun v _ => by ring
  rw [e1, half_pairs _ (fun a b v => (del c a + del c b) * bareN p a b (table p.R pos v a b))
    (fun a b v => by rw [table_neg, bareN_comm]; ring)]
  let M : Fin n → Fin n → ℝ := fun a b => ∑ v ∈ cells (reach p rCutCN), bareN p a b (table p.R pos v a b)
  have hM : ∀ a b, M a b = M b a := by
    intro a b
    show ∑ v ∈ cells (reach p rCutCN), bareN p a b (table p.R pos v a b) = ∑ v ∈ cells (reach p rCutCN), bareN p b a (table p.R pos v b a)
    rw [← sum_cells_neg]
    exact Finset.sum_congr rfl fun v _ => by rw [table_neg, bareN_comm]
  have e2 : ∑ a, ∑ b, ∑ v ∈ cells (reach p rCutCN), (del c a + del c b) * bareN p a b (table p.R pos v a b) = 2 * ∑ b, M c b := by
    have : ∀ a b, ∑ v ∈ cells (reach p rCutCN), (del c a + del c b) * bareN p a b (table p.R pos v a b) = del c a * M a b + del c b * M a b := by
      intro a b; rw [← Finset.mul_sum]; ring
    simp only [this, Finset.sum_add_distrib, ← Finset.mul_sum]
    rw [sum_del c (fun a => ∑ b, M a b)]
    simp only [sum_del c]
    simp only [hM _ c]
    ring
  rw [e2]
  unfold coordination
  rw [← mul_assoc, show (1 / 2 : ℝ) * 2 = 1 by norm_num, one_mul]
  refine Finset.sum_congr rfl fun b _ => ?_
  rw [neighbours_eq]
  refine Finset.sum_congr rfl fun v _ => ?_
  have hs := skip_iff p.R pos v c b 50 (by norm_num)
  by_cases h : table p.R pos v c b ≠ 0 ∧ table p.R pos v c b ≤ 50 * 50
  · rw [if_neg (fun h' => hs.1 h' h)]
    unfold bareN
    rw [if_pos (show table p.R pos v c b ≠ 0 ∧ table p.R pos v c b ≤ rCutCN * rCutCN from h)]
    rfl
  · rw [if_pos (hs.2 h)]
    unfold bareN
    rw [if_neg (show ¬ (table p.R pos v c b ≠ 0 ∧ table p.R pos v c b ≤ rCutCN * rCutCN) from h)]

/-! ## Coefficients -/

theorem data_getD (T : Tables) (a1 a2 : AtomParams) (i j : Nat) (hi : i < a1.iCN.length) (hj : j < a2.iCN.length) :
    (pairC6data T a1 a2).getD (i * a2.iCN.length + j) 0 = T.coeff (pairIndex (a1.iCN.getD i 0) (a2.iCN.getD j 0)) := by
  unfold pairC6data
  generalize a1.iCN = l at *
  induction l generalizing i with
  | nil => simp at hi
  | cons k l ih =>
    rw [List.flatMap_cons]
    cases i with
    | zero =>
      rw [zero_mul, zero_add, List.getD_append _ _ _ _ (by simpa using hj), List.getD_cons_zero, getD_map, dif_pos hj,
        List.getD_eq_getElem _ _ hj]
    | succ i =>
      rw [List.getD_append_right _ _ _ _ (by simp; nlinarith), List.getD_cons_succ, List.length_map,
        show (i + 1) * a2.iCN.length + j - a2.iCN.length = i * a2.iCN.length + j by
          rw [Nat.succ_mul]; omega]
      exact ih i (by simpa using hi)

theorem zip_sum (l1 : List Nat) (l2 : List ℝ) (h : l1.length = l2.length) (f : Nat × ℝ → ℝ) :
    ((l1.zip l2).map f).sum = ∑ i ∈ Finset.range l2.length, f (l1.getD i 0, l2.getD i 0) := by
  induction l1 generalizing l2 with
  | nil => cases l2 with
    | nil => simp
    | cons _ _ => simp at h
  | cons a l1 ih => cases l2 with
    | nil => simp at h
    | cons b l2 =>
      rw [List.zip_cons_cons, List.map_cons, List.sum_cons, ih l2 (by simpa using h), List.length_cons, Finset.sum_range_succ']
      simp only [List.getD_cons_succ, List.getD_cons_zero]
      ring

theorem pairIndex_comm (i j : Nat) : pairIndex i j = pairIndex j i := by
  unfold pairIndex; rw [max_comm, min_comm]

theorem interp_range (T : Tables) (a1 a2 : AtomParams) (h1 : a1.iCN.length = a1.CN.length) (h2 : a2.iCN.length = a2.CN.length) (x1 x2 : ℝ) :
    C6interp T a1 a2 x1 x2 = ∑ i ∈ Finset.range a1.CN.length, ∑ j ∈ Finset.range a2.CN.length,
      weight a1.CN x1 (a1.CN.getD i 0) * weight a2.CN x2 (a2.CN.getD j 0) * T.coeff (pairIndex (a1.iCN.getD i 0) (a2.iCN.getD j 0)) := by
  unfold C6interp
  rw [zip_sum _ _ h1]
  exact Finset.sum_congr rfl fun i _ => zip_sum _ _ h2 _

theorem interp_comm (T : Tables) (a1 a2 : AtomParams) (h1 : a1.iCN.length = a1.CN.length) (h2 : a2.iCN.length = a2.CN.length) (x1 x2 : ℝ) :
    C6interp T a1 a2 x1 x2 = C6interp T a2 a1 x2 x1 := by
  rw [interp_range T a1 a2 h1 h2, interp_range T a2 a1 h2 h1, Finset.sum_comm]
  refine Finset.sum_congr rfl fun i _ => Finset.sum_congr rfl fun j _ => ?_
  rw [pairIndex_comm]; ring

theorem Lsum_spec (CN : List ℝ) (x : ℝ) : Lsum CN x = (CN.map fun c => Real.exp (-4 * (x - c) ^ 2)).sum := rfl

theorem getL_weight (CN : List ℝ) (x : ℝ) (h : tiny ≤ Lsum CN x) (i : Nat) (hi : i < CN.length) :
    (getL CN x).getD i 0 = weight CN x (CN.getD i 0) := by
  rw [getL, if_neg (not_lt.2 h), getD_map, dif_pos hi, List.getD_eq_getElem _ _ hi, weight, ← Lsum_spec]
  rw [mul_one_div]; rfl

/-- Elements are in the order in which the elements of the code's matrix are read. -/
def Layout (a1 a2 : AtomParams) : Prop := a1 = a2 ∨ a1.iCN.length = 1 ∨ a2.iCN.length = 1

theorem sandwich_interp (T : Tables) (a1 a2 : AtomParams) (h1 : a1.iCN.length = a1.CN.length) (h2 : a2.iCN.length = a2.CN.length)
    (x1 x2 : ℝ) (t1 : tiny ≤ Lsum a1.CN x1) (t2 : tiny ≤ Lsum a2.CN x2) (hl : Layout a1 a2) :
    sandwich (getL a1.CN x1) (pairC6data T a1 a2) (getL a2.CN x2) = C6interp T a1 a2 x1 x2 := by
  rw [interp_range T a1 a2 h1 h2, sandwich, getL_length, getL_length]
  refine Finset.sum_congr rfl fun i hi => Finset.sum_congr rfl fun j hj => ?_
  rw [Finset.mem_range] at hi hj
  rw [getL_weight _ _ t1 i hi, getL_weight _ _ t2 j hj]
  have : element a1.CN.length (pairC6data T a1 a2) i j = T.coeff (pairIndex (a1.iCN.getD i 0) (a2.iCN.getD j 0)) := by
    unfold element
    rcases hl with rfl | hl | hl
    · have := data_getD T a1 a1 j i (by omega) (by omega)
      rw [mul_comm a1.CN.length, ← h1, this, pairIndex_comm]
    · have hi0 : i = 0 := by omega
      subst hi0
      have := data_getD T a1 a2 0 j (by omega) (by omega)
      rw [← this, ← h1, hl]; congr 1; omega
    · have hj0 : j = 0 := by omega
      subst hj0
      have := data_getD T a1 a2 i 0 (by omega) (by omega)
      rw [← this, hl]; simp
  rw [this]; ring

theorem radius_comm (p : Params n) (a b : Fin n) : radius p a b = radius p b a ∧ ratio p a b = ratio p b a := by
  have hr : ratio p a b = ratio p b a := by unfold ratio; ring
  refine ⟨?_, hr⟩
  unfold radius
  rw [hr]
  split
  · rfl
  · simp only [pairRadius, min_comm, max_comm]

theorem damped6 (p : Params n) (R0 r : ℝ) : term6 p R0 r = damped p 6 R0 r := by
  unfold term6 damped vdWpotentialBJ vdWpotential
  split
  · rfl
  · simp only [if_pos]; rw [div_pow, one_pow, mul_one_div, mul_one_div]

theorem damped8 (p : Params n) (R0 r : ℝ) : term8 p R0 r = damped p 8 R0 r := by
  unfold term8 damped vdWpotentialBJ vdWpotential
  split
  · rfl
  · simp only [show ¬ (8 = 6) by decide, if_false]; rw [div_pow, one_pow, mul_one_div, mul_one_div]

/-- The energy of the specification in terms of the pair function. -/
theorem total_bare (p : Params n) (hV : Valid p) (pos : Fin n → V3 ℝ) :
    total p pos = (1 / 2) * ∑ a, ∑ b, ∑ v ∈ cells (reach p (rCut p)),
      C6interp p.T (p.atom a) (p.atom b) (coordination p pos a) (coordination p pos b) * bareA p a b (table p.R pos v a b) := by
  unfold total
  rw [neg_mul, ← mul_neg]
  congr 1
  rw [← Finset.sum_neg_distrib]
  refine Finset.sum_congr rfl fun a _ => ?_
  rw [← Finset.sum_neg_distrib]
  refine Finset.sum_congr rfl fun b _ => ?_
  rw [← Finset.sum_neg_distrib, neighbours_eq]
  refine Finset.sum_congr rfl fun v _ => ?_
  have hs := skip_iff p.R pos v a b (rCut p) (rCut_pos p hV.cut)
  by_cases h : table p.R pos v a b ≠ 0 ∧ table p.R pos v a b ≤ rCut p * rCut p
  · rw [if_neg (fun h' => hs.1 h' h)]
    simp only [bareA, if_pos h, distance_eq, damped6, damped8]
    ring
  · rw [if_pos (hs.2 h)]
    simp only [bareA, if_neg h]; ring

theorem bareA_comm (p : Params n) (a b : Fin n) (s : ℝ) : bareA p a b s = bareA p b a s := by
  simp only [bareA, (radius_comm p a b).1, (radius_comm p a b).2]

/-- The energy in the specification when the coefficients agree. -/
theorem eQ_total (p : Params n) (hV : Valid p) (pos : Fin n → V3 ℝ)
    (hC : ∀ a b, C6pair p (coordination p pos) a b = C6interp p.T (p.atom a) (p.atom b) (coordination p pos a) (coordination p pos b)) :
    (closed p pos).E = total p pos := by
  have hc : cnQ p (reach p rCutCN) (table p.R pos) = coordination p pos := funext fun c => cnQ_eq p pos c
  simp only [closed, eQ, hc, hC, aQ]
  have e : ∀ a b, C6interp p.T (p.atom a) (p.atom b) (coordination p pos a) (coordination p pos b) *
      ∑ v ∈ half (reach p (rCut p)), D2.cellWeight v * bareA p a b (table p.R pos v a b)
      = ∑ v ∈ half (reach p (rCut p)), D2.cellWeight v *
        (C6interp p.T (p.atom a) (p.atom b) (coordination p pos a) (coordination p pos b) * bareA p a b (table p.R pos v a b)) := by
    intro a b; rw [Finset.mul_sum]; exact Finset.sum_congr rfl fun v _ => by ring
  simp only [e]
  rw [half_pairs _ (fun a b v => C6interp p.T (p.atom a) (p.atom b) (coordination p pos a) (coordination p pos b) * bareA p a b (table p.R pos v a b))]
  · rw [total_bare p hV]
  · intro a b v
    rw [table_neg, interp_comm p.T _ _ (valid_length p hV a) (valid_length p hV b), bareA_comm]

end
end Jdftx.D3
