import Verif.Spec.VdwD3
import Verif.Lemmas.VdwD2
import Mathlib.Data.List.GetD

/-!
# Lemmas for C106: pair potentials and interpolation weights
-/
namespace Jdftx.D3
noncomputable section
open M3 Filter Topology Ewald

/-! ## Pair potentials -/

theorem vdWpotential_deriv (m j : Nat) (R0 r : ℝ) (hr : 0 < r) :
    HasDerivAt (fun r => vdWpotential m (2 * j) (1 / r) R0) (vdWpotential_r m (2 * j) (1 / r) R0) r := by
  have hinv : HasDerivAt (fun r : ℝ => 1 / r) (-(1 / r) ^ 2) r := by
    refine ((hasDerivAt_const r (1 : ℝ)).div (hasDerivAt_id r) hr.ne').congr_deriv ?_
    simp; ring
  have hpow : ∀ N : Nat, ∀ x : ℝ, (N : ℝ) * x ^ (N - 1) * x ^ 2 = N * x ^ N * x := by
    intro N x
    cases N with
    | zero => simp
    | succ N => rw [Nat.add_sub_cancel]; ring
  have h1 := hinv.pow m
  have hdt := (((hinv.const_mul R0).pow (2 * j)).const_mul 6).const_add 1
  have hpos : 0 < 1 + 6 * (R0 * (1 / r)) ^ (2 * j) := by
    have := (even_two_mul j).pow_nonneg (R0 * (1 / r)); positivity
  have hd := (hasDerivAt_const r (1 : ℝ)).div hdt hpos.ne'
  refine (h1.mul hd).congr_deriv ?_
  simp only [vdWpotential_r, Pi.pow_apply, Pi.div_apply]
  have e1 : (m : ℝ) * (1 / r) ^ (m - 1) * -(1 / r) ^ 2 = (-(m : ℝ)) * (1 / r) ^ m * (1 / r) := by
    rw [mul_neg, hpow]; ring
  have e2 : 6 * (((2 * j : ℕ) : ℝ) * (R0 * (1 / r)) ^ (2 * j - 1) * (R0 * -(1 / r) ^ 2))
      = (-((2 * j : ℕ) : ℝ)) * (6 * (R0 * (1 / r)) ^ (2 * j)) * (1 / r) := by
    have h := hpow (2 * j) (R0 * (1 / r))
    have h3 : (2 * j : ℕ) = 0 ∨ 0 < 2 * j := Nat.eq_zero_or_pos _
    rcases h3 with h3 | h3
    · rw [h3]; simp
    · obtain ⟨q, hq⟩ : ∃ q, 2 * j = q + 1 := ⟨2 * j - 1, by omega⟩
      rw [hq, Nat.add_sub_cancel]; ring
  rw [e1, e2]
  generalize (1 / r) ^ m = A at *
  generalize 6 * (R0 * (1 / r)) ^ (2 * j) = B at *
  have hB := hpos.ne'
  field_simp
  ring

theorem vdWpotentialBJ_deriv (j : Nat) (R0 a1 a2 r : ℝ) (hr : 0 < r) :
    HasDerivAt (fun r => vdWpotentialBJ (2 * j) r R0 a1 a2) (vdWpotentialBJ_r (2 * j) r R0 a1 a2) r := by
  have hpos : 0 < r ^ (2 * j) + (a1 * R0 + a2) ^ (2 * j) := by
    have := (even_two_mul j).pow_nonneg (a1 * R0 + a2); positivity
  have h := ((hasDerivAt_pow (2 * j) r).add_const ((a1 * R0 + a2) ^ (2 * j)))
  refine ((hasDerivAt_const r (1 : ℝ)).div h hpos.ne').congr_deriv ?_
  simp only [vdWpotentialBJ_r]
  have hB := hpos.ne'
  field_simp
  ring

variable {n : Nat}

theorem term6_deriv (p : Params n) (R0 r : ℝ) (hr : 0 < r) : HasDerivAt (fun r => term6 p R0 r) (term6_r p R0 r) r := by
  unfold term6 term6_r
  cases p.dampBJ with
  | true => exact vdWpotentialBJ_deriv 3 R0 _ _ r hr
  | false => exact vdWpotential_deriv 6 7 _ r hr

theorem term8_deriv (p : Params n) (R0 r : ℝ) (hr : 0 < r) : HasDerivAt (fun r => term8 p R0 r) (term8_r p R0 r) r := by
  unfold term8 term8_r
  cases p.dampBJ with
  | true => exact vdWpotentialBJ_deriv 4 R0 _ _ r hr
  | false => exact vdWpotential_deriv 8 8 _ r hr

/-! ## Weights -/

theorem getL_length (CN : List ℝ) (x : ℝ) : (getL CN x).length = CN.length := by
  unfold getL; split <;> simp
theorem getLprime_length (CN : List ℝ) (x : ℝ) : (getLprime CN x).length = CN.length := by
  unfold getLprime; split <;> simp

theorem getD_map {α : Type} (l : List α) (f : α → ℝ) (i : Nat) :
    (l.map f).getD i 0 = if h : i < l.length then f l[i] else 0 := by
  by_cases h : i < l.length
  · rw [dif_pos h, List.getD_eq_getElem _ _ (by simpa using h)]; simp
  · rw [dif_neg h, List.getD_eq_default _ _ (by simpa using h)]

theorem gauss_deriv (x c : ℝ) : HasDerivAt (fun x => gauss x c) (gaussPrime x c) x := by
  have h := ((((hasDerivAt_id x).sub_const c).pow 2).const_mul (-k3)).exp
  refine h.congr_deriv ?_
  simp only [gaussPrime, gauss, id, Pi.pow_apply]
  push_cast
  ring

theorem Lsum_deriv (CN : List ℝ) (x : ℝ) : HasDerivAt (fun x => Lsum CN x) (LprimeSum CN x) x := by
  induction CN with
  | nil => simpa [Lsum, LprimeSum] using hasDerivAt_const x (0 : ℝ)
  | cons c l ih =>
    have := (gauss_deriv x c).add ih
    refine HasDerivAt.congr_of_eventuallyEq (this.congr_deriv ?_) (Eventually.of_forall fun y => ?_)
    · simp [LprimeSum]
    · simp [Lsum]

theorem gauss_pos (x c : ℝ) : 0 < gauss x c := Real.exp_pos _

theorem tiny_pos : 0 < tiny := by unfold tiny; positivity

/-- The second result of `getL` is the derivative of the first. -/
theorem getL_deriv (CN : List ℝ) (x : ℝ) (h : Lsum CN x ≠ tiny) (i : Nat) :
    HasDerivAt (fun x => (getL CN x).getD i 0) ((getLprime CN x).getD i 0) x := by
  have hc := (Lsum_deriv CN x).continuousAt
  rcases lt_or_gt_of_ne h with h | h
  · have hev : (fun x => (getL CN x).getD i 0) =ᶠ[𝓝 x]
        fun _ => ((List.range CN.length).map fun i => if i = maxElement CN then (1 : ℝ) else 0).getD i 0 := by
      filter_upwards [hc.eventually (gt_mem_nhds h)] with y hy
      simp only [getL, if_pos hy]
    refine HasDerivAt.congr_of_eventuallyEq ?_ hev
    have : (getLprime CN x).getD i 0 = 0 := by
      simp only [getLprime, if_pos h]; rw [getD_map]; split <;> rfl
    rw [this]
    exact hasDerivAt_const _ _
  · have hev : (fun x => (getL CN x).getD i 0) =ᶠ[𝓝 x]
        fun y => if hi : i < CN.length then gauss y CN[i] * (1 / Lsum CN y) else 0 := by
      filter_upwards [hc.eventually (lt_mem_nhds h)] with y hy
      simp only [getL, if_neg (not_lt.2 hy.le)]; rw [getD_map]
    refine HasDerivAt.congr_of_eventuallyEq ?_ hev
    have e : (getLprime CN x).getD i 0 = if hi : i < CN.length then (1 / Lsum CN x) * (gaussPrime x CN[i] - (1 / Lsum CN x * LprimeSum CN x) * gauss x CN[i]) else 0 := by
      simp only [getLprime, if_neg (not_lt.2 h.le)]; rw [getD_map]
    rw [e]
    by_cases hi : i < CN.length
    · simp only [dif_pos hi]
      have hne : Lsum CN x ≠ 0 := (tiny_pos.trans h).ne'
      refine ((gauss_deriv x CN[i]).mul ((hasDerivAt_const x (1 : ℝ)).div (Lsum_deriv CN x) hne)).congr_deriv ?_
      simp only [Pi.div_apply]
      field_simp
      ring
    · simp only [dif_neg hi]; exact hasDerivAt_const _ _

theorem Lsum_nonneg (CN : List ℝ) (x : ℝ) : 0 ≤ Lsum CN x :=
  List.sum_nonneg fun y hy => by
    obtain ⟨c, -, rfl⟩ := List.mem_map.1 hy
    exact (gauss_pos x c).le

theorem maxElement_lt (l : List ℝ) (h : l ≠ []) : maxElement l < l.length := by
  induction l with
  | nil => exact absurd rfl h
  | cons c l ih =>
    rw [maxElement]
    split
    · rename_i h'; have := ih h'.1; simpa using this
    · simp

/-- The chosen entry is the largest. -/
theorem maxElement_max (l : List ℝ) : ∀ c ∈ l, c ≤ l.getD (maxElement l) 0 := by
  induction l with
  | nil => simp
  | cons d l ih =>
    intro c hc
    rw [maxElement]
    by_cases h : l ≠ [] ∧ l.getD (maxElement l) 0 > d
    · rw [if_pos h, List.getD_cons_succ]
      rcases List.mem_cons.1 hc with rfl | hc
      · exact h.2.le
      · exact ih c hc
    · rw [if_neg h, List.getD_cons_zero]
      rcases List.mem_cons.1 hc with rfl | hc
      · exact le_refl _
      · have hl : l ≠ [] := List.ne_nil_of_mem hc
        have : ¬ l.getD (maxElement l) 0 > d := fun h' => h ⟨hl, h'⟩
        exact (ih c hc).trans (not_lt.1 this)

theorem getL_nonneg (CN : List ℝ) (x : ℝ) (i : Nat) : 0 ≤ (getL CN x).getD i 0 := by
  unfold getL
  split
  · rw [getD_map]; split
    · split <;> norm_num
    · exact le_refl _
  · rw [getD_map]; split
    · exact mul_nonneg (gauss_pos _ _).le (one_div_nonneg.2 (Lsum_nonneg CN x))
    · exact le_refl _

theorem getL_somewhere (CN : List ℝ) (h : CN ≠ []) (x : ℝ) : ∃ i < CN.length, 0 < (getL CN x).getD i 0 := by
  unfold getL
  split
  · refine ⟨maxElement CN, maxElement_lt CN h, ?_⟩
    rw [getD_map, dif_pos (by simpa using maxElement_lt CN h)]
    simp
  · rename_i h'
    have hp : 0 < CN.length := List.length_pos_iff.2 h
    refine ⟨0, hp, ?_⟩
    rw [getD_map, dif_pos hp]
    exact mul_pos (gauss_pos _ _) (one_div_pos.2 (tiny_pos.trans_le (not_lt.1 h')))

/-! ## Interpolated coefficients -/

theorem data_length (T : Tables) (a1 a2 : AtomParams) : (pairC6data T a1 a2).length = a1.iCN.length * a2.iCN.length := by
  unfold pairC6data
  induction a1.iCN with
  | nil => simp
  | cons i l ih => simp [ih]; ring

theorem data_pos (T : Tables) (hT : ∀ k, 0 < T.coeff k) (a1 a2 : AtomParams) (k : Nat) (hk : k < a1.iCN.length * a2.iCN.length) :
    0 < (pairC6data T a1 a2).getD k 0 := by
  rw [List.getD_eq_getElem _ _ (by rw [data_length]; exact hk)]
  have := List.getElem_mem (l := pairC6data T a1 a2) (n := k) (by rw [data_length]; exact hk)
  generalize (pairC6data T a1 a2)[k]'(by rw [data_length]; exact hk) = y at *
  simp only [pairC6data, List.mem_flatMap, List.mem_map] at this
  obtain ⟨i, -, j, -, rfl⟩ := this
  exact hT _

theorem sandwich_pos (T : Tables) (hT : ∀ k, 0 < T.coeff k) (a1 a2 : AtomParams) (h1 : a1.CN ≠ []) (h2 : a2.CN ≠ [])
    (l1 : a1.iCN.length = a1.CN.length) (l2 : a2.iCN.length = a2.CN.length) (x1 x2 : ℝ) :
    0 < sandwich (getL a1.CN x1) (pairC6data T a1 a2) (getL a2.CN x2) := by
  obtain ⟨i, hi, hpi⟩ := getL_somewhere a1.CN h1 x1
  obtain ⟨j, hj, hpj⟩ := getL_somewhere a2.CN h2 x2
  unfold sandwich
  rw [getL_length, getL_length]
  have hd : ∀ i ∈ Finset.range a1.CN.length, ∀ j ∈ Finset.range a2.CN.length, 0 < element a1.CN.length (pairC6data T a1 a2) i j := by
    intro i hi j hj
    rw [Finset.mem_range] at hi hj
    refine data_pos T hT a1 a2 _ ?_
    rw [l1, l2]
    nlinarith
  have hn : ∀ i ∈ Finset.range a1.CN.length, ∀ j ∈ Finset.range a2.CN.length,
      0 ≤ (getL a1.CN x1).getD i 0 * element a1.CN.length (pairC6data T a1 a2) i j * (getL a2.CN x2).getD j 0 := fun i hi j hj =>
    mul_nonneg (mul_nonneg (getL_nonneg _ _ _) (hd i hi j hj).le) (getL_nonneg _ _ _)
  refine Finset.sum_pos' (fun i hi => Finset.sum_nonneg fun j hj => hn i hi j hj) ⟨i, Finset.mem_range.2 hi, ?_⟩
  refine Finset.sum_pos' (fun j hj => hn i (Finset.mem_range.2 hi) j hj) ⟨j, Finset.mem_range.2 hj, ?_⟩
  exact mul_pos (mul_pos hpi (hd i (Finset.mem_range.2 hi) j (Finset.mem_range.2 hj))) hpj

theorem sandwich_deriv (CN1 CN2 data : List ℝ) (x1 x2 : ℝ → ℝ) (x1' x2' : ℝ)
    (h1 : Lsum CN1 (x1 0) ≠ tiny) (h2 : Lsum CN2 (x2 0) ≠ tiny) (d1 : HasDerivAt x1 x1' 0) (d2 : HasDerivAt x2 x2' 0) :
    HasDerivAt (fun t => sandwich (getL CN1 (x1 t)) data (getL CN2 (x2 t)))
      (sandwich (getLprime CN1 (x1 0)) data (getL CN2 (x2 0)) * x1' + sandwich (getL CN1 (x1 0)) data (getLprime CN2 (x2 0)) * x2') 0 := by
  simp only [sandwich, getL_length, getLprime_length]
  have hs := HasDerivAt.fun_sum fun i (_ : i ∈ Finset.range CN1.length) => HasDerivAt.fun_sum fun j (_ : j ∈ Finset.range CN2.length) =>
    (((getL_deriv CN1 (x1 0) h1 i).comp 0 d1).mul_const (element CN1.length data i j)).mul ((getL_deriv CN2 (x2 0) h2 j).comp 0 d2)
  refine hs.congr_deriv ?_
  simp only [Finset.sum_mul, ← Finset.sum_add_distrib]
  refine Finset.sum_congr rfl fun i _ => Finset.sum_congr rfl fun j _ => ?_
  simp only [Function.comp]
  ring

end
end Jdftx.D3
