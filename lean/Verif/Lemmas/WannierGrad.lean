import Verif.Lemmas.Wannier
import Verif.Lemmas.MatrixDeriv

/-! # Lemmas for the spread of Wannier functions: the gradient -/
namespace Jdftx.Wan
noncomputable section
open M3 Finset Jdftx.MatFn
open scoped ComplexConjugate
open MatFunc (Diag DiagOK)

variable {d : ∀ n, Diag n} {s : Sys} {g : Grad}

/-- Rate of change of the overlaps. -/
def dMat (s : Sys) (g : Grad) (i j : ℕ) : CM := fun a c =>
  (∑ q ∈ range (s.k i).nIn, conj (X s g i q a) * Mat s i j q c) + ∑ q ∈ range (s.k (s.nbr i j)).nIn, Mat s i j a q * X s g (s.nbr i j) q c

theorem Mat_eq (s : Sys) (i j a c : ℕ) : Mat s i j a c = ∑ y ∈ range s.nBands, ∑ x ∈ range s.nBands, conj ((s.k i).U x a) * s.M0 i j x y * (s.k (s.nbr i j)).U y c := by
  simp only [Mat, mul, dag, Finset.sum_mul]

theorem Mat_deriv (hd : ∀ n, DiagOK (d n)) (hs : Shape s) (hr : Rot s) (hg : Dir s g) {i j : ℕ} (hi : i < s.nk) (hj : j < s.nEdge) {a c : ℕ}
    (ha : a < (s.k i).nIn) (hc : c < (s.k (s.nbr i j)).nIn) :
    HasDerivAt (fun α : ℝ => Mat (step s d g α) i j a c) (dMat s g i j a c) 0 ∧ Mat (step s d g 0) i j a c = Mat s i j a c := by
  have hn := hs.nbr i hi j hj
  have e : ∀ α, Mat (step s d g α) i j a c = ∑ y ∈ range s.nBands, ∑ x ∈ range s.nBands,
      conj (((step s d g α).k i).U x a) * s.M0 i j x y * ((step s d g α).k (s.nbr i j)).U y c := fun α => Mat_eq _ _ _ _ _
  constructor
  · simp only [e]
    have h := HasDerivAt.fun_sum (u := range s.nBands) fun y hy => HasDerivAt.fun_sum (u := range s.nBands) fun x hx =>
      (((conj_deriv (U_deriv hd hs hr hg hi (Finset.mem_range.1 hx) ha).1).mul_const (s.M0 i j x y)).mul (U_deriv hd hs hr hg hn (Finset.mem_range.1 hy) hc).1)
    refine h.congr_deriv ?_
    rw [Finset.sum_congr rfl fun y hy => Finset.sum_congr rfl fun x hx => by
      rw [(U_deriv hd hs hr hg hi (Finset.mem_range.1 hx) ha).2, (U_deriv hd hs hr hg hn (Finset.mem_range.1 hy) hc).2]]
    unfold dMat mul
    simp only [Finset.sum_add_distrib, Mat_eq, map_sum, map_mul, Finset.sum_mul, Finset.mul_sum]
    congr 1
    · rw [Finset.sum_congr rfl fun y _ => Finset.sum_comm, Finset.sum_comm]
      exact Finset.sum_congr rfl fun q _ => Finset.sum_congr rfl fun y _ => Finset.sum_congr rfl fun x _ => by ring
    · rw [Finset.sum_congr rfl fun y _ => Finset.sum_comm, Finset.sum_comm]
      exact Finset.sum_congr rfl fun q _ => Finset.sum_congr rfl fun y _ => Finset.sum_congr rfl fun x _ => by ring
  · rw [e, Mat_eq]
    refine Finset.sum_congr rfl fun y hy => Finset.sum_congr rfl fun x hx => ?_
    rw [(U_deriv hd hs hr hg hi (Finset.mem_range.1 hx) ha).2, (U_deriv hd hs hr hg hn (Finset.mem_range.1 hy) hc).2]

/-- What is accumulated at k-points from the derivatives by overlaps. -/
def accum (s : Sys) (OM : ℕ → ℕ → CM) (l : ℕ) : CM := fun a c => ∑ i ∈ range s.nk, ∑ j ∈ range s.nEdge,
  ((if i = l then conj (∑ q ∈ range s.nCenters, Mat s i j c q * OM i j q a) else 0) + (if s.nbr i j = l then ∑ q ∈ range s.nCenters, OM i j a q * Mat s i j q c else 0))

theorem sum_pick {n i : ℕ} (hi : i < n) (f : ℕ → ℝ) : ∑ l ∈ range n, (if i = l then f l else 0) = f i := by
  rw [Finset.sum_ite_eq]
  simp [hi]

theorem sum3 (A B C : Finset ℕ) (f : ℕ → ℕ → ℕ → ℂ) : ∑ a ∈ A, ∑ b ∈ B, ∑ c ∈ C, f a b c = ∑ c ∈ C, ∑ b ∈ B, ∑ a ∈ A, f a b c := by
  rw [Finset.sum_comm]
  rw [Finset.sum_congr rfl fun b _ => Finset.sum_comm]
  rw [Finset.sum_comm]

theorem sum4' (A B C D : Finset ℕ) (f : ℕ → ℕ → ℕ → ℕ → ℂ) : ∑ a ∈ A, ∑ b ∈ B, ∑ c ∈ C, ∑ e ∈ D, f a b c e = ∑ c ∈ C, ∑ e ∈ D, ∑ b ∈ B, ∑ a ∈ A, f a b c e := by
  rw [← Finset.sum_product' A B fun a b => ∑ c ∈ C, ∑ e ∈ D, f a b c e, Finset.sum_comm]
  refine Finset.sum_congr rfl fun c _ => ?_
  rw [Finset.sum_comm]
  refine Finset.sum_congr rfl fun e _ => ?_
  rw [Finset.sum_product' A B fun a b => f a b c e, Finset.sum_comm]

/-- From derivatives by overlaps to derivatives by rotations. -/
theorem chain (hs : Shape s) (OM : ℕ → ℕ → CM) :
    (∑ i ∈ range s.nk, ∑ j ∈ range s.nEdge, ∑ a ∈ range s.nCenters, ∑ c ∈ range s.nCenters, OM i j a c * dMat s g i j c a).re =
      ∑ l ∈ range s.nk, (∑ a ∈ range s.nCenters, ∑ q ∈ range (s.k l).nIn, accum s OM l a q * X s g l q a).re := by
  have h1 : ∀ l, (∑ a ∈ range s.nCenters, ∑ q ∈ range (s.k l).nIn, accum s OM l a q * X s g l q a).re =
      ∑ i ∈ range s.nk, ∑ j ∈ range s.nEdge, ((if i = l then (∑ a ∈ range s.nCenters, ∑ q ∈ range (s.k l).nIn,
          conj (∑ p ∈ range s.nCenters, Mat s i j q p * OM i j p a) * X s g l q a).re else 0) +
        (if s.nbr i j = l then (∑ a ∈ range s.nCenters, ∑ q ∈ range (s.k l).nIn, (∑ p ∈ range s.nCenters, OM i j a p * Mat s i j p q) * X s g l q a).re else 0)) := by
    intro l
    unfold accum
    have : (∑ a ∈ range s.nCenters, ∑ q ∈ range (s.k l).nIn, (∑ i ∈ range s.nk, ∑ j ∈ range s.nEdge,
        ((if i = l then conj (∑ p ∈ range s.nCenters, Mat s i j q p * OM i j p a) else 0) + (if s.nbr i j = l then ∑ p ∈ range s.nCenters, OM i j a p * Mat s i j p q else 0))) * X s g l q a) =
        ∑ i ∈ range s.nk, ∑ j ∈ range s.nEdge, ((if i = l then (∑ a ∈ range s.nCenters, ∑ q ∈ range (s.k l).nIn,
          conj (∑ p ∈ range s.nCenters, Mat s i j q p * OM i j p a) * X s g l q a) else 0) +
        (if s.nbr i j = l then (∑ a ∈ range s.nCenters, ∑ q ∈ range (s.k l).nIn, (∑ p ∈ range s.nCenters, OM i j a p * Mat s i j p q) * X s g l q a) else 0)) := by
      rw [Finset.sum_congr rfl fun a _ => Finset.sum_congr rfl fun q _ => Finset.sum_mul _ _ _]
      rw [Finset.sum_congr rfl fun a _ => Finset.sum_comm, Finset.sum_comm]
      refine Finset.sum_congr rfl fun i _ => ?_
      rw [Finset.sum_congr rfl fun a _ => Finset.sum_congr rfl fun q _ => Finset.sum_mul _ _ _]
      rw [Finset.sum_congr rfl fun a _ => Finset.sum_comm, Finset.sum_comm]
      refine Finset.sum_congr rfl fun j _ => ?_
      simp only [add_mul, ite_mul, zero_mul, Finset.sum_add_distrib]
      congr 1 <;> split_ifs <;> simp
    rw [this, Complex.re_sum]
    refine Finset.sum_congr rfl fun i _ => ?_
    rw [Complex.re_sum]
    refine Finset.sum_congr rfl fun j _ => ?_
    rw [Complex.add_re]
    congr 1 <;> split_ifs <;> rfl
  rw [Finset.sum_congr rfl fun l _ => h1 l]
  refine Eq.trans ?_ Finset.sum_comm
  rw [Complex.re_sum]
  refine Finset.sum_congr rfl fun i hi => ?_
  refine Eq.trans ?_ Finset.sum_comm
  rw [Complex.re_sum]
  refine Finset.sum_congr rfl fun j hj => ?_
  rw [Finset.sum_add_distrib]
  rw [sum_pick (Finset.mem_range.1 hi) (f := fun l => (∑ a ∈ range s.nCenters, ∑ q ∈ range (s.k l).nIn, conj (∑ p ∈ range s.nCenters, Mat s i j q p * OM i j p a) * X s g l q a).re)]
  rw [sum_pick (hs.nbr i (Finset.mem_range.1 hi) j (Finset.mem_range.1 hj))
    (f := fun l => (∑ a ∈ range s.nCenters, ∑ q ∈ range (s.k l).nIn, (∑ p ∈ range s.nCenters, OM i j a p * Mat s i j p q) * X s g l q a).re)]
  have e1 : (∑ a ∈ range s.nCenters, ∑ q ∈ range (s.k i).nIn, conj (∑ p ∈ range s.nCenters, Mat s i j q p * OM i j p a) * X s g i q a).re =
      (∑ a ∈ range s.nCenters, ∑ c ∈ range s.nCenters, OM i j a c * ∑ q ∈ range (s.k i).nIn, conj (X s g i q c) * Mat s i j q a).re := by
    rw [← Complex.conj_re]
    congr 1
    simp only [map_sum, map_mul, Complex.conj_conj, Finset.sum_mul, Finset.mul_sum]
    rw [sum3]
    rw [Finset.sum_congr rfl fun a _ => Finset.sum_comm]
    exact Finset.sum_congr rfl fun q _ => Finset.sum_congr rfl fun y _ => Finset.sum_congr rfl fun x _ => by ring
  have e2 : (∑ a ∈ range s.nCenters, ∑ q ∈ range (s.k (s.nbr i j)).nIn, (∑ p ∈ range s.nCenters, OM i j a p * Mat s i j p q) * X s g (s.nbr i j) q a).re =
      (∑ a ∈ range s.nCenters, ∑ c ∈ range s.nCenters, OM i j a c * ∑ q ∈ range (s.k (s.nbr i j)).nIn, Mat s i j c q * X s g (s.nbr i j) q a).re := by
    congr 1
    simp only [Finset.sum_mul, Finset.mul_sum]
    rw [Finset.sum_congr rfl fun a _ => Finset.sum_comm]
    exact Finset.sum_congr rfl fun q _ => Finset.sum_congr rfl fun y _ => Finset.sum_congr rfl fun x _ => by ring
  rw [e1, e2, ← Complex.add_re]
  congr 1
  rw [← Finset.sum_add_distrib]
  refine Finset.sum_congr rfl fun a _ => ?_
  rw [← Finset.sum_add_distrib]
  refine Finset.sum_congr rfl fun c _ => ?_
  unfold dMat
  ring

/-- From derivatives by rotations to the two parts of the gradient, at one k-point. -/
theorem parts (hs : Shape s) (hr : Rot s) (hg : Dir s g) (dU : ℕ → CM) {l : ℕ} (hl : l < s.nk) :
    (∑ a ∈ range s.nCenters, ∑ q ∈ range (s.k l).nIn, dU l a q * X s g l q a).re =
      (if s.nCenters < (s.k l).nIn then
        (∑ a ∈ range (s.nCenters - (s.k l).nFixed), ∑ c ∈ range ((s.k l).nIn - s.nCenters), conj ((toGrad s dU).B1 l a c) * g.B1 l a c).re * 2 else 0)
      + (∑ a ∈ range (s.nCenters - s.nFrozen), ∑ c ∈ range (s.nCenters - s.nFrozen), conj ((toGrad s dU).B2 l a c) * g.B2 l a c).re := by
  have hff := hs.frozen l hl
  have hfc := hs.fixed l hl
  have hci := hs.centers l hl
  set N := (s.k l).nIn with hN
  -- in terms of `Omega_B`
  have h1 : ∑ a ∈ range s.nCenters, ∑ q ∈ range N, dU l a q * X s g l q a =
      ∑ x ∈ range N, ∑ y ∈ range N, (G1 s g l x y + G2 s g l x y) * (2 * OmegaB s dU l y x) := by
    have e : ∀ y x, 2 * OmegaB s dU l y x = Complex.I * ∑ q ∈ range N, (∑ a ∈ range s.nCenters, (s.k l).U2 y a * dU l a q) * conj ((s.k l).U2 x q) := by
      intro y x
      unfold OmegaB mul dag
      rw [← hN]
      ring
    simp only [e]
    unfold X mul dag
    rw [← hN]
    simp only [Finset.mul_sum, Finset.sum_mul]
    rw [sum4']
    exact Finset.sum_congr rfl fun x _ => Finset.sum_congr rfl fun y _ => Finset.sum_congr rfl fun q _ => Finset.sum_congr rfl fun a _ => by ring
  -- rows of `Omega_B` beyond the centers vanish
  have h0 : ∀ y < N, s.nCenters ≤ y → ∀ x, OmegaB s dU l y x = 0 := by
    intro y hy hyc x
    unfold OmegaB mul
    rw [Finset.sum_eq_zero, mul_zero]
    intro q _
    rw [Finset.sum_eq_zero, zero_mul]
    intro a ha
    have := Finset.mem_range.1 ha
    rw [hr.block l hl y hy a (by omega) (by omega), if_neg (by omega), zero_mul]
  have h2 : ∑ x ∈ range N, ∑ y ∈ range N, G2 s g l x y * (2 * OmegaB s dU l y x) =
      ∑ a ∈ range (s.nCenters - s.nFrozen), ∑ c ∈ range (s.nCenters - s.nFrozen), 2 * (g.B2 l a c * OmegaB s dU l (s.nFrozen + c) (s.nFrozen + a)) := by
    rw [sum_block (m := s.nFrozen) (p := s.nCenters) (by omega) (by omega)]
    · refine Finset.sum_congr rfl fun a ha => ?_
      have ha := Finset.mem_range.1 ha
      rw [sum_block (m := s.nFrozen) (p := s.nCenters) (by omega) (by omega)]
      · refine Finset.sum_congr rfl fun c hc => ?_
        have hc := Finset.mem_range.1 hc
        unfold G2
        rw [if_pos ⟨by omega, by omega, by omega, by omega⟩, Nat.add_sub_cancel_left, Nat.add_sub_cancel_left]
        ring
      · intro c _ hc
        unfold G2
        rw [if_neg (by tauto), zero_mul]
    · intro a _ ha
      refine Finset.sum_eq_zero fun c _ => ?_
      unfold G2
      rw [if_neg (by tauto), zero_mul]
  have h3 : ∑ x ∈ range N, ∑ y ∈ range N, G1 s g l x y * (2 * OmegaB s dU l y x) =
      if s.nCenters < N then ∑ a ∈ range (s.nCenters - (s.k l).nFixed), ∑ c ∈ range (N - s.nCenters),
        2 * (conj (g.B1 l a c) * OmegaB s dU l ((s.k l).nFixed + a) (s.nCenters + c)) else 0 := by
    split_ifs with h
    · rw [Finset.sum_comm]
      rw [sum_block (m := (s.k l).nFixed) (p := s.nCenters) (by omega) (by omega)]
      · refine Finset.sum_congr rfl fun a ha => ?_
        have ha := Finset.mem_range.1 ha
        rw [sum_tail (m := s.nCenters) (by omega)]
        · refine Finset.sum_congr rfl fun c hc => ?_
          have hc := Finset.mem_range.1 hc
          unfold G1 herm
          rw [if_pos ⟨h, by omega, by omega⟩, Nat.add_sub_cancel_left]
          simp only [set, dag]
          rw [if_pos ⟨by omega, by omega, by omega, by omega⟩]
          rw [show s.nCenters + c - (s.k l).nFixed - (s.nCenters - (s.k l).nFixed) = c by omega, Nat.sub_zero]
          ring
        · intro c hc
          unfold G1 herm
          split_ifs with h4
          · rw [Nat.add_sub_cancel_left]
            simp only [set, dag]
            rw [if_neg (by omega), if_neg (by omega), zero_mul]
          · rw [zero_mul]
      · intro y hy hyb
        refine Finset.sum_eq_zero fun x _ => ?_
        by_cases hyc : s.nCenters ≤ y
        · rw [h0 y hy hyc, mul_zero, mul_zero]
        · unfold G1
          rw [if_neg (by omega), zero_mul]
    · refine Finset.sum_eq_zero fun x _ => Finset.sum_eq_zero fun y _ => ?_
      unfold G1
      rw [if_neg (fun hh => h hh.1), zero_mul]
  rw [h1]
  simp only [add_mul, Finset.sum_add_distrib]
  rw [h2, h3, Complex.add_re]
  congr 1
  · split_ifs with h
    · rw [mul_comm, ← Complex.re_ofReal_mul, ← Complex.conj_re]
      congr 1
      simp only [map_sum, map_mul, Finset.mul_sum, Complex.conj_conj, Complex.conj_ofNat]
      refine Finset.sum_congr rfl fun a _ => Finset.sum_congr rfl fun c _ => ?_
      show _ = ((2 : ℝ) : ℂ) * (conj (OmegaB s dU l _ _) * _)
      push_cast
      ring
    · rfl
  · have e : ∑ a ∈ range (s.nCenters - s.nFrozen), ∑ c ∈ range (s.nCenters - s.nFrozen), conj ((toGrad s dU).B2 l a c) * g.B2 l a c =
        (∑ a ∈ range (s.nCenters - s.nFrozen), ∑ c ∈ range (s.nCenters - s.nFrozen), conj (g.B2 l a c * OmegaB s dU l (s.nFrozen + c) (s.nFrozen + a))) +
        ∑ a ∈ range (s.nCenters - s.nFrozen), ∑ c ∈ range (s.nCenters - s.nFrozen), g.B2 l a c * OmegaB s dU l (s.nFrozen + c) (s.nFrozen + a) := by
      rw [Finset.sum_comm (f := fun a c => conj (g.B2 l a c * OmegaB s dU l (s.nFrozen + c) (s.nFrozen + a)))]
      rw [← Finset.sum_add_distrib]
      refine Finset.sum_congr rfl fun a ha => ?_
      rw [← Finset.sum_add_distrib]
      refine Finset.sum_congr rfl fun c hc => ?_
      rw [map_mul, ← hg l hl c (Finset.mem_range.1 hc) a (Finset.mem_range.1 ha)]
      simp only [toGrad, sub, dag, map_add, Complex.conj_conj]
      ring
    rw [e, Complex.add_re]
    simp only [← map_sum, Complex.conj_re, ← Finset.mul_sum]
    rw [show ∀ z : ℂ, (2 * z).re = 2 * z.re from fun z => by simp]
    ring

/-- A quantity whose derivative comes from overlaps has the gradient found by `compute`. -/
theorem gradient_of (hs : Shape s) (hr : Rot s) (hg : Dir s g) (OM : ℕ → ℕ → CM) :
    (∑ i ∈ range s.nk, ∑ j ∈ range s.nEdge, ∑ a ∈ range s.nCenters, ∑ c ∈ range s.nCenters, OM i j a c * dMat s g i j c a).re = gdot s (toGrad s (accum s OM)) g := by
  rw [chain hs]
  unfold gdot
  exact Finset.sum_congr rfl fun l hl => parts hs hr hg _ (Finset.mem_range.1 hl)

end
end Jdftx.Wan
