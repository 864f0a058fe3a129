import Verif.Lemmas.Wannier
import Mathlib.LinearAlgebra.Matrix.Trace

/-! # Lemmas for the spread of Wannier functions: steps keep rotations unitary, Bessel's inequality, mixing of centers -/
namespace Jdftx.Wan
noncomputable section
open M3 Finset Jdftx.MatFn
open scoped ComplexConjugate
open MatFunc (Diag DiagOK)

variable {d : ∀ n, Diag n} {s : Sys} {g : Grad}

theorem isometry_mul {N n : ℕ} {A W : CM} (hA : Isometry N n A) (hW : Isometry n n W) : Isometry N n (mul n A W) := by
  intro a ha c hc
  rw [dag_mul, mul_assoc', ← mul_assoc' N n (dag A)]
  rw [← hW a ha c hc]
  refine Finset.sum_congr rfl fun q hq => ?_
  congr 1
  exact mul_unit (Finset.mem_range.1 hq) (fun y hy => hA q (Finset.mem_range.1 hq) y hy) _ _

theorem isometry_congr {N n : ℕ} {A B : CM} (h : ∀ x < N, ∀ a < n, A x a = B x a) (hA : Isometry N n A) : Isometry N n B := by
  intro a ha c hc
  rw [← hA a ha c hc]
  refine Finset.sum_congr rfl fun q hq => ?_
  unfold dag
  rw [h q (Finset.mem_range.1 hq) a ha, h q (Finset.mem_range.1 hq) c hc]

/-- Unit matrix with a block replaced. -/
def blk (m p : ℕ) (C : CM) : CM := fun a c => if m ≤ a ∧ a < p ∧ m ≤ c ∧ c < p then C (a - m) (c - m) else if a = c then 1 else 0

theorem blk_isometry {n m p : ℕ} (hmp : m ≤ p) (hpn : p ≤ n) {C : CM} (hC : Isometry (p - m) (p - m) C) : Isometry n n (blk m p C) := by
  intro a ha c hc
  unfold mul dag
  by_cases h1 : m ≤ a ∧ a < p
  · rw [sum_block hmp hpn]
    · by_cases h2 : m ≤ c ∧ c < p
      · have := hC (a - m) (by omega) (c - m) (by omega)
        rw [show (if a = c then (1 : ℂ) else 0) = if a - m = c - m then 1 else 0 by congr 1; simp; omega, ← this]
        refine Finset.sum_congr rfl fun q hq => ?_
        have := Finset.mem_range.1 hq
        unfold blk dag
        rw [if_pos (by omega), if_pos (by omega), Nat.add_sub_cancel_left]
      · rw [if_neg (by rintro rfl; exact h2 h1)]
        refine Finset.sum_eq_zero fun q hq => ?_
        have := Finset.mem_range.1 hq
        have e : blk m p C (m + q) c = 0 := by
          unfold blk
          rw [if_neg (by omega), if_neg (by omega)]
        rw [e, mul_zero]
    · intro q _ hq
      unfold blk
      rw [if_neg (by tauto), if_neg (by rintro rfl; exact hq h1), map_zero, zero_mul]
  · have e : ∀ q ∈ range n, conj (blk m p C q a) * blk m p C q c = (if a = q then 1 else 0) * blk m p C q c := by
      intro q _
      unfold blk
      rw [if_neg (c := m ≤ q ∧ q < p ∧ m ≤ a ∧ a < p) (by tauto)]
      congr 1
      by_cases hq : q = a
      · simp [hq]
      · simp [hq, Ne.symm hq]
    rw [Finset.sum_congr rfl e, sum_delta ha]
    unfold blk
    rw [if_neg (by tauto)]

variable (d g) in
/-- The factor of `U1` in a step. -/
def W1 (s : Sys) (α : ℝ) (l : ℕ) : CM :=
  if s.nCenters < (s.k l).nIn then blk (s.k l).nFixed (s.k l).nIn (cisN d ((s.k l).nIn - (s.k l).nFixed)
    fun x y => α * herm (s.nCenters - (s.k l).nFixed) ((s.k l).nIn - (s.k l).nFixed) (g.B1 l) x y)
  else fun a c => if a = c then 1 else 0

theorem step_U1 (hs : Shape s) {l : ℕ} (hl : l < s.nk) (α : ℝ) {x a : ℕ} (hx : x < s.nBands) (ha : a < (s.k l).nIn) :
    ((step s d g α).k l).U1 x a = mul (s.k l).nIn (s.k l).U1 (W1 d g s α l) x a := by
  have hfc := hs.fixed l hl
  have hci := hs.centers l hl
  unfold W1 mul
  show (stepEntry s d g α l (s.k l)).U1 x a = _
  unfold stepEntry
  simp only
  split_ifs with h
  · simp only [set, Nat.zero_le, hx, ha, true_and, and_true]
    split_ifs with hf
    · rw [sum_tail (m := (s.k l).nFixed) (by omega)]
      · unfold mul sub
        refine Finset.sum_congr rfl fun q hq => ?_
        have := Finset.mem_range.1 hq
        unfold blk
        rw [if_pos (by omega), Nat.add_sub_cancel_left, herm_mul]
        simp
      · intro q hq
        unfold blk
        rw [if_neg (by omega), if_neg (by omega), mul_zero]
    · refine Eq.symm (Eq.trans (Finset.sum_congr rfl fun q _ => ?_) (sum_delta' ha fun q => (s.k l).U1 x q))
      unfold blk
      rw [if_neg (by omega)]
  · exact (sum_delta' ha fun q => (s.k l).U1 x q).symm

theorem W1_isometry (hd : ∀ n, DiagOK (d n)) (hs : Shape s) {l : ℕ} (hl : l < s.nk) (α : ℝ) : Isometry (s.k l).nIn (s.k l).nIn (W1 d g s α l) := by
  have hfc := hs.fixed l hl
  have hci := hs.centers l hl
  unfold W1
  split_ifs with h
  · exact blk_isometry (by omega) le_rfl (cisN_unitary hd (fun _ _ _ _ => herm_herm _ _ _ _ _) α)
  · intro a ha c _
    unfold mul dag
    refine Eq.trans (Finset.sum_congr rfl fun q _ => ?_) (sum_delta ha fun q => if q = c then (1 : ℂ) else 0)
    congr 1
    by_cases hq : q = a
    · simp [hq]
    · simp [hq, Ne.symm hq]

theorem W1_fixed {l : ℕ} (α : ℝ) {a c : ℕ} (hc : c < (s.k l).nFixed) : W1 d g s α l a c = if a = c then 1 else 0 := by
  unfold W1
  by_cases h : s.nCenters < (s.k l).nIn
  · rw [if_pos h]
    unfold blk
    rw [if_neg (by omega)]
  · rw [if_neg h]

variable (d g) in
/-- The factor of `U2` in a step. -/
def W2 (s : Sys) (α : ℝ) (l : ℕ) : CM := blk s.nFrozen s.nCenters (cisN d (s.nCenters - s.nFrozen) fun x y => α * g.B2 l x y)

theorem step_U2 (hs : Shape s) (hr : Rot s) {l : ℕ} (hl : l < s.nk) (α : ℝ) {a c : ℕ} (ha : a < (s.k l).nIn) (hc : c < (s.k l).nIn) :
    ((step s d g α).k l).U2 a c = mul (s.k l).nIn (W2 d g s α l) (s.k l).U2 a c := by
  have hff := hs.frozen l hl
  have hfc := hs.fixed l hl
  have hci := hs.centers l hl
  show (stepEntry s d g α l (s.k l)).U2 a c = _
  unfold stepEntry W2 mul
  simp only [set]
  split_ifs with hb
  · refine Eq.trans ?_ (sum_block (m := s.nFrozen) (p := s.nCenters) (by omega) (by omega) _ ?_).symm
    · unfold sub
      refine Finset.sum_congr rfl fun q hq => ?_
      have := Finset.mem_range.1 hq
      unfold blk
      rw [if_pos (by omega), Nat.add_sub_cancel_left, show s.nFrozen + (c - s.nFrozen) = c by omega]
    · intro q _ hq
      unfold blk
      rw [if_neg (by tauto), if_neg (by rintro rfl; exact hq ⟨hb.1, hb.2.1⟩), zero_mul]
  · by_cases h1 : s.nFrozen ≤ a ∧ a < s.nCenters
    · rw [hr.block l hl a ha c hc hb]
      rw [Finset.sum_eq_zero]
      · rw [if_neg (by rintro rfl; exact hb ⟨h1.1, h1.2, h1.1, h1.2⟩)]
      · intro q hq
        by_cases h2 : s.nFrozen ≤ q ∧ q < s.nCenters
        · rw [hr.block l hl q (Finset.mem_range.1 hq) c hc (by tauto), if_neg (by rintro rfl; tauto), mul_zero]
        · unfold blk
          rw [if_neg (by tauto), if_neg (by rintro rfl; exact h2 h1), zero_mul]
    · refine Eq.symm (Eq.trans (Finset.sum_congr rfl fun q _ => ?_) (sum_delta ha fun q => (s.k l).U2 q c))
      unfold blk
      rw [if_neg (by tauto)]

theorem W2_isometry (hd : ∀ n, DiagOK (d n)) (hs : Shape s) (hg : Dir s g) {l : ℕ} (hl : l < s.nk) (α : ℝ) : Isometry (s.k l).nIn (s.k l).nIn (W2 d g s α l) := by
  have hff := hs.frozen l hl
  have hfc := hs.fixed l hl
  have hci := hs.centers l hl
  exact blk_isometry (by omega) (by omega) (cisN_unitary hd (hg l hl) α)

theorem step_shape (hs : Shape s) (α : ℝ) : Shape (step s d g α) := ⟨hs.frozen, hs.fixed, hs.centers, hs.nbr⟩

theorem step_rot (hd : ∀ n, DiagOK (d n)) (hs : Shape s) (hr : Rot s) (hg : Dir s g) (α : ℝ) : Rot (step s d g α) where
  prod := fun _ _ => rfl
  unitary := fun l hl => isometry_congr (fun x hx a ha => (step_U2 hs hr hl α hx ha).symm) (isometry_mul (W2_isometry hd hs hg hl α) (hr.unitary l hl))
  block := fun l hl a ha c hc h => by
    rw [← hr.block l hl a ha c hc h]
    show (stepEntry s d g α l (s.k l)).U2 a c = _
    unfold stepEntry
    simp only [set]
    exact if_neg h

/-! ## Bessel's inequality -/

theorem bessel' {N m : ℕ} {A : CM} (hA : Isometry N m A) (w : ℕ → ℂ) :
    ∑ a ∈ range m, Complex.normSq (∑ x ∈ range N, conj (A x a) * w x) ≤ ∑ x ∈ range N, Complex.normSq (w x) := by
  set p : ℕ → ℂ := fun a => ∑ x ∈ range N, conj (A x a) * w x with hp
  have h0 : (0 : ℝ) ≤ ∑ x ∈ range N, Complex.normSq (w x - ∑ a ∈ range m, A x a * p a) := Finset.sum_nonneg fun _ _ => Complex.normSq_nonneg _
  have e1 : (((∑ x ∈ range N, Complex.normSq (w x - ∑ a ∈ range m, A x a * p a)) : ℝ) : ℂ) =
      ((∑ x ∈ range N, Complex.normSq (w x) - ∑ a ∈ range m, Complex.normSq (p a) : ℝ) : ℂ) := by
    push_cast
    simp only [← Complex.mul_conj, map_sub, map_sum, map_mul, sub_mul, mul_sub, Finset.sum_sub_distrib]
    have t1 : ∑ x ∈ range N, w x * ∑ a ∈ range m, conj (A x a) * conj (p a) = ∑ a ∈ range m, p a * conj (p a) := by
      simp only [hp, Finset.mul_sum, Finset.sum_mul]
      rw [Finset.sum_comm]
      exact Finset.sum_congr rfl fun a _ => Finset.sum_congr rfl fun x _ => by ring
    have t2 : ∑ x ∈ range N, (∑ a ∈ range m, A x a * p a) * conj (w x) = ∑ a ∈ range m, p a * conj (p a) := by
      simp only [hp, map_sum, map_mul, Complex.conj_conj, Finset.mul_sum]
      simp only [Finset.sum_mul]
      rw [Finset.sum_comm]
      refine Finset.sum_congr rfl fun a _ => Finset.sum_congr rfl fun x _ => Finset.sum_congr rfl fun y _ => by ring
    have t3 : ∑ x ∈ range N, (∑ a ∈ range m, A x a * p a) * ∑ a ∈ range m, conj (A x a) * conj (p a) = ∑ a ∈ range m, p a * conj (p a) := by
      simp only [Finset.sum_mul_sum]
      rw [Finset.sum_comm]
      refine Finset.sum_congr rfl fun a ha => ?_
      rw [Finset.sum_comm]
      refine Eq.trans (Finset.sum_congr rfl fun c hc => ?_) (sum_delta (Finset.mem_range.1 ha) fun c => p a * conj (p c))
      have := hA c (Finset.mem_range.1 hc) a (Finset.mem_range.1 ha)
      rw [show (if a = c then (1 : ℂ) else 0) = if c = a then 1 else 0 by simp [eq_comm], ← this]
      unfold mul dag
      rw [Finset.sum_mul]
      exact Finset.sum_congr rfl fun x _ => by ring
    rw [t1, t2, t3]
    ring
  have := Complex.ofReal_inj.1 e1
  linarith

/-- Sum of squared overlaps of centers on one edge. -/
theorem sum_normSq_le {N m : ℕ} {A B M : CM} (hA : Isometry N m A) (hB : Isometry N m B) (hM : Contraction N M) :
    ∑ a ∈ range m, ∑ c ∈ range m, Complex.normSq (mul N (mul N (dag A) M) B a c) ≤ m := by
  rw [Finset.sum_comm]
  have : ∀ c ∈ range m, ∑ a ∈ range m, Complex.normSq (mul N (mul N (dag A) M) B a c) ≤ 1 := by
    intro c hc
    have h1 := bessel' hA fun x => ∑ y ∈ range N, M x y * B y c
    have h2 := hM fun y => B y c
    have h3 : ∑ y ∈ range N, Complex.normSq (B y c) = 1 := by
      have := hB c (Finset.mem_range.1 hc) c (Finset.mem_range.1 hc)
      rw [if_pos rfl] at this
      have h4 : ((∑ y ∈ range N, Complex.normSq (B y c) : ℝ) : ℂ) = 1 := by
        rw [← this]
        push_cast
        unfold mul dag
        exact Finset.sum_congr rfl fun y _ => by rw [Complex.normSq_eq_conj_mul_self]
      exact_mod_cast h4
    rw [h3] at h2
    have e : ∀ a, mul N (mul N (dag A) M) B a c = ∑ x ∈ range N, conj (A x a) * ∑ y ∈ range N, M x y * B y c := by
      intro a
      rw [mul_assoc']
      rfl
    simp only [e]
    exact le_trans h1 h2
  calc _ ≤ ∑ c ∈ range m, (1 : ℝ) := Finset.sum_le_sum this
    _ = m := by simp

/-! ## Mixing of centers -/

theorem sum_normSq_mix {m : ℕ} {M W V : CM} (hW : Isometry m m W) (hV : Isometry m m V) :
    ∑ a ∈ range m, ∑ c ∈ range m, Complex.normSq (mul m (mul m (dag W) M) V a c) = ∑ a ∈ range m, ∑ c ∈ range m, Complex.normSq (M a c) := by
  -- an isometry keeps lengths
  have key : ∀ {Q : CM}, Isometry m m Q → ∀ v : ℕ → ℂ, ∑ a ∈ range m, Complex.normSq (∑ x ∈ range m, conj (Q x a) * v x) = ∑ x ∈ range m, Complex.normSq (v x) := by
    intro Q hQ v
    have : ((∑ a ∈ range m, Complex.normSq (∑ x ∈ range m, conj (Q x a) * v x) : ℝ) : ℂ) = ((∑ x ∈ range m, Complex.normSq (v x) : ℝ) : ℂ) := by
      push_cast
      simp only [← Complex.mul_conj, map_sum, map_mul, Complex.conj_conj, Finset.sum_mul_sum]
      rw [Finset.sum_comm]
      refine Finset.sum_congr rfl fun x hx => ?_
      rw [Finset.sum_comm]
      refine Eq.trans (Finset.sum_congr rfl fun y hy => ?_) (sum_delta (Finset.mem_range.1 hx) fun y => v x * conj (v y))
      have := isometry_rows hQ (Finset.mem_range.1 hy) (Finset.mem_range.1 hx)
      rw [show (if x = y then (1 : ℂ) else 0) = if y = x then 1 else 0 by simp [eq_comm], ← this]
      unfold mul dag
      rw [Finset.sum_mul]
      exact Finset.sum_congr rfl fun a _ => by ring
    exact_mod_cast this
  rw [Finset.sum_comm]
  have e1 : ∀ c, ∑ a ∈ range m, Complex.normSq (mul m (mul m (dag W) M) V a c) = ∑ x ∈ range m, Complex.normSq (mul m M V x c) := by
    intro c
    rw [← key hW fun x => mul m M V x c]
    rw [mul_assoc']
    rfl
  simp only [e1]
  rw [Finset.sum_comm]
  refine Finset.sum_congr rfl fun x _ => ?_
  rw [← Finset.sum_congr rfl fun c (_ : c ∈ range m) => Complex.normSq_conj (M x c)]
  rw [← key hV fun c => conj (M x c)]
  refine Finset.sum_congr rfl fun c _ => ?_
  rw [← Complex.normSq_conj]
  unfold mul
  simp only [map_sum, map_mul]
  congr 1
  exact Finset.sum_congr rfl fun y _ => mul_comm _ _

end
end Jdftx.Wan
