import Verif.Lemmas.WannierSpread
import Verif.Lemmas.WannierStep
import Verif.Lemmas.ElecMin

/-!
# C100: spread of Wannier functions: centers, spreads, gradient and steps of the minimization
-/
namespace Jdftx.Wan
noncomputable section
open M3 Finset Jdftx.MatFn
open scoped ComplexConjugate
open MatFunc (Diag DiagOK)

variable {d : ∀ n, Diag n} {s : Sys} {g : Grad}

/-- The gradient handed to the minimizer is the derivative of the spread along every step, with the scalar product of the minimizer: for any numbers of bands, of bands kept in
full, of frozen centers, of k-points and edges, pinned or not, as long as no overlap is zero or on the branch cut. -/
theorem C100_gradient (hd : ∀ n, DiagOK (d n)) (hs : Shape s) (hr : Rot s) (hg : Dir s g)
    (hM : ∀ n < s.nCenters, ∀ i < s.nk, ∀ j < s.nEdge, Mnn s i j n ∈ Complex.slitPlane) :
    HasDerivAt (fun α : ℝ => Omega (step s d g α)) (gdot s (grad s) g) 0 := by
  refine (Omega_deriv hd hs hr hg hM).congr_deriv ?_
  rw [← accum_diag, ← gradient_of hs hr hg]
  congr 1
  refine Finset.sum_congr rfl fun i _ => Finset.sum_congr rfl fun j _ => Finset.sum_congr rfl fun n hn => ?_
  refine Eq.symm (Eq.trans (Finset.sum_congr rfl fun c _ => ?_) (sum_delta (Finset.mem_range.1 hn) fun c => OmegaM s i j c * dMat s g i j c n))
  by_cases h : n = c <;> simp [h]

/-- The same for the invariant part of the spread, without conditions on the overlaps. -/
theorem C100_invariant_gradient (hd : ∀ n, DiagOK (d n)) (hs : Shape s) (hr : Rot s) (hg : Dir s g) :
    HasDerivAt (fun α : ℝ => OmegaI (step s d g α)) (gdot s (gradI s) g) 0 := by
  refine (OmegaI_deriv hd hs hr hg).congr_deriv ?_
  rw [gradient_of hs hr hg fun i j a c => 2 * (s.k i).weight * s.wb j * -dag (Mat s i j) a c]
  rfl

/-- Any number of steps in any directions keeps the columns of the rotations orthonormal and the state consistent, leaves frozen centers as they are, and keeps every band of
the inner window within the span of the centers. -/
theorem C100_steps (hd : ∀ n, DiagOK (d n)) (hs : Shape s) (hr : Rot s) (h1 : ∀ l < s.nk, Isometry s.nBands (s.k l).nIn (s.k l).U1) (steps : List (Grad × ℝ))
    (hg : ∀ p ∈ steps, Dir s p.1) :
    let s' := steps.foldl (fun t p => step t d p.1 p.2) s
    Shape s' ∧ Rot s' ∧ (∀ l < s.nk, Isometry s.nBands (s.k l).nIn (s'.k l).U) ∧
    (∀ l < s.nk, ∀ c < s.nFrozen, ∀ x < s.nBands, (s'.k l).U x c = (s.k l).U x c) ∧
    ∀ l < s.nk, ∀ a < (s.k l).nFixed, ∃ v : ℕ → ℂ, ∀ x < s.nBands, (s.k l).U1 x a = ∑ c ∈ range s.nCenters, (s'.k l).U x c * v c := by
  -- what is kept
  have hinv : ∀ steps : List (Grad × ℝ), (∀ p ∈ steps, Dir s p.1) → let s' := steps.foldl (fun t p => step t d p.1 p.2) s
      Shape s' ∧ Rot s' ∧ (s'.nBands = s.nBands ∧ s'.nCenters = s.nCenters ∧ s'.nFrozen = s.nFrozen ∧ s'.nk = s.nk ∧ ∀ l, (s'.k l).nIn = (s.k l).nIn ∧ (s'.k l).nFixed = (s.k l).nFixed) ∧
      (∀ l < s.nk, Isometry s.nBands (s.k l).nIn (s'.k l).U1) ∧ ∀ l < s.nk, ∀ a < (s.k l).nFixed, ∀ x < s.nBands, (s'.k l).U1 x a = (s.k l).U1 x a := by
    intro steps
    induction steps using List.reverseRecOn with
    | nil => intro _; exact ⟨hs, hr, ⟨rfl, rfl, rfl, rfl, fun _ => ⟨rfl, rfl⟩⟩, h1, fun _ _ _ _ _ _ => rfl⟩
    | append_singleton ps p ih =>
      intro hp
      rw [List.foldl_append, List.foldl_cons, List.foldl_nil]
      set t := ps.foldl (fun t p => step t d p.1 p.2) s with ht
      obtain ⟨i1, i2, ⟨n1, n2, n3, n4, n5⟩, i4, i5⟩ := ih fun q hq => hp q (List.mem_append_left _ hq)
      have hgt : Dir t p.1 := by
        have := hp p (by simp)
        unfold Dir at this ⊢
        rw [n2, n3, n4]
        exact this
      refine ⟨step_shape i1 _, step_rot hd i1 i2 hgt _, ⟨n1, n2, n3, n4, n5⟩, ?_, ?_⟩
      · intro l hl
        have hl' : l < t.nk := by rw [n4]; exact hl
        have hU := i4 l hl
        rw [← n1, ← (n5 l).1] at hU ⊢
        exact isometry_congr (fun x hx a ha => (step_U1 i1 hl' p.2 hx ha).symm) (isometry_mul hU (W1_isometry hd i1 hl' p.2))
      · intro l hl a ha x hx
        have hl' : l < t.nk := by rw [n4]; exact hl
        have hfi : (t.k l).nFixed ≤ (t.k l).nIn := le_trans (i1.fixed l hl') (i1.centers l hl')
        have haF : a < (t.k l).nFixed := by rw [(n5 l).2]; exact ha
        rw [← i5 l hl a ha x hx, step_U1 i1 hl' p.2 (by rw [n1]; exact hx) (by omega)]
        exact mul_unit' (by omega) (fun q _ => W1_fixed p.2 haF) _ _
  obtain ⟨i1, i2, ⟨n1, n2, n3, n4, n5⟩, i4, i5⟩ := hinv steps hg
  intro s'
  have hfr : ∀ l < s.nk, s.nFrozen ≤ (s.k l).nFixed ∧ (s.k l).nFixed ≤ s.nCenters ∧ s.nCenters ≤ (s.k l).nIn := fun l hl => ⟨hs.frozen l hl, hs.fixed l hl, hs.centers l hl⟩
  refine ⟨i1, i2, ?_, ?_, ?_⟩
  · intro l hl
    have hl' : l < s'.nk := by rw [n4]; exact hl
    rw [i2.prod l hl', (n5 l).1]
    have hu := i2.unitary l hl'
    rw [(n5 l).1] at hu
    exact isometry_mul (i4 l hl) hu
  · intro l hl c hc x hx
    have hl' : l < s'.nk := by rw [n4]; exact hl
    obtain ⟨f1, f2, f3⟩ := hfr l hl
    rw [i2.prod l hl', hr.prod l hl, (n5 l).1]
    rw [mul_unit' (by omega) (fun a ha => i2.block l hl' a (by rw [(n5 l).1]; exact ha) c (by rw [(n5 l).1]; omega) (by rw [n3]; omega))]
    rw [mul_unit' (by omega) (fun a ha => hr.block l hl a ha c (by omega) (by omega))]
    exact i5 l hl c (by omega) x hx
  · intro l hl a ha
    have hl' : l < s'.nk := by rw [n4]; exact hl
    obtain ⟨f1, f2, f3⟩ := hfr l hl
    refine ⟨fun c => conj ((s'.k l).U2 a c), fun x hx => ?_⟩
    rw [← i5 l hl a ha x hx]
    have hp := i2.prod l hl'
    rw [(n5 l).1] at hp
    have hu := i2.unitary l hl'
    rw [(n5 l).1] at hu
    -- the product with the inverse rotation, over all bands at hand
    have e1 : ∑ c ∈ range (s.k l).nIn, (s'.k l).U x c * conj ((s'.k l).U2 a c) = (s'.k l).U1 x a := by
      have : mul (s.k l).nIn (s'.k l).U (dag (s'.k l).U2) x a = (s'.k l).U1 x a := by
        rw [hp, mul_assoc']
        exact mul_unit' (by omega) (fun q hq => isometry_rows hu hq (by omega)) _ _
      exact this
    rw [← e1]
    symm
    conv_rhs => rw [show (s.k l).nIn = s.nCenters + ((s.k l).nIn - s.nCenters) by omega, Finset.sum_range_add]
    rw [Finset.sum_eq_zero (s := range ((s.k l).nIn - s.nCenters)), add_zero]
    intro q hq
    have := Finset.mem_range.1 hq
    rw [i2.block l hl' a (by rw [(n5 l).1]; omega) (s.nCenters + q) (by rw [(n5 l).1]; omega) (by rw [n2]; omega), if_neg (by omega), map_zero, mul_zero]

/-- The spread is the sum of its invariant part, of the overlaps between different centers, and of the fluctuation of phases about the position of the center. -/
theorem C100_decomposition (hf : Formula s) : Omega s = OmegaI s + OmegaOD s + OmegaD s := by
  have hO : ∀ n, rSq0 s n - 2 * dot (rExp0 s n) (r0 s n) + CellMap.lenSq (r0 s n) =
      (∑ i ∈ range s.nk, ∑ j ∈ range s.nEdge, (s.k i).weight * s.wb j * (1 - Complex.normSq (Mat s i j n n))) +
      ∑ i ∈ range s.nk, ∑ j ∈ range s.nEdge, (s.k i).weight * s.wb j * ((Mnn s i j n).arg + dot (r0 s n) (s.b j)) ^ 2 := by
    intro n
    have e : ∀ i j, (s.k i).weight * s.wb j * ((Mnn s i j n).arg + dot (r0 s n) (s.b j)) ^ 2 = (s.k i).weight * s.wb j * ((Mnn s i j n).arg * (Mnn s i j n).arg) +
        2 * ((s.k i).weight * s.wb j * ((Mnn s i j n).arg * dot (r0 s n) (s.b j))) + (s.k i).weight * s.wb j * (dot (r0 s n) (s.b j) * dot (r0 s n) (s.b j)) := fun i j => by ring
    have e2 : rSq0 s n = (∑ i ∈ range s.nk, ∑ j ∈ range s.nEdge, (s.k i).weight * s.wb j * ((Mnn s i j n).arg * (Mnn s i j n).arg)) +
        ∑ i ∈ range s.nk, ∑ j ∈ range s.nEdge, (s.k i).weight * s.wb j * (1 - Complex.normSq (Mat s i j n n)) := by
      simp only [rSq0, ← Finset.sum_add_distrib]
      refine Finset.sum_congr rfl fun i _ => Finset.sum_congr rfl fun j _ => ?_
      rw [Mnn_normSq]
      ring
    simp only [e, Finset.sum_add_distrib, ← Finset.mul_sum, formula_dot hf, rExp0_dot]
    rw [e2, dot_comm' (r0 s n) (rExp0 s n)]
    unfold CellMap.lenSq dot
    ring
  unfold Omega OmegaOD OmegaD
  rw [OmegaI_eq, Finset.sum_congr rfl fun n _ => hO n, Finset.sum_add_distrib]
  congr 1
  rw [Finset.sum_comm, ← Finset.sum_add_distrib]
  refine Finset.sum_congr rfl fun i _ => ?_
  rw [Finset.sum_comm, ← Finset.sum_add_distrib]
  refine Finset.sum_congr rfl fun j _ => ?_
  rw [← Finset.mul_sum, ← mul_add]
  congr 1
  have h3 : ∀ a ∈ range s.nCenters, ∑ c ∈ range s.nCenters, Complex.normSq (Mat s i j a c) = Complex.normSq (Mat s i j a a) +
      ∑ c ∈ (range s.nCenters).filter (· ≠ a), Complex.normSq (Mat s i j a c) := by
    intro a ha
    rw [← Finset.add_sum_erase _ _ ha]
    congr 1
    refine Finset.sum_congr ?_ fun _ _ => rfl
    ext c
    simp only [Finset.mem_erase, Finset.mem_filter]
    tauto
  rw [Finset.sum_congr rfl h3, Finset.sum_add_distrib, Finset.sum_sub_distrib]
  rw [Finset.sum_const, Finset.card_range, nsmul_eq_mul, mul_one]
  ring

/-- With weights that are not negative, the spread is no less than its invariant part, which is no less than zero. -/
theorem C100_bounds (hf : Formula s) (hw : NonNeg s) : OmegaI s ≤ Omega s ∧
    ((∀ i < s.nk, ∀ j < s.nEdge, s.nbr i j < s.nk ∧ Contraction s.nBands (s.M0 i j)) → (∀ i < s.nk, Isometry s.nBands s.nCenters (s.k i).U) → 0 ≤ OmegaI s) := by
  have hww : ∀ i ∈ range s.nk, ∀ j ∈ range s.nEdge, 0 ≤ (s.k i).weight * s.wb j := fun i hi j hj => mul_nonneg (hw.weight i (Finset.mem_range.1 hi)) (hw.wb j (Finset.mem_range.1 hj))
  constructor
  · rw [C100_decomposition hf]
    have h1 : 0 ≤ OmegaOD s := Finset.sum_nonneg fun i hi => Finset.sum_nonneg fun j hj => mul_nonneg (hww i hi j hj)
      (Finset.sum_nonneg fun _ _ => Finset.sum_nonneg fun _ _ => Complex.normSq_nonneg _)
    have h2 : 0 ≤ OmegaD s := Finset.sum_nonneg fun n _ => Finset.sum_nonneg fun i hi => Finset.sum_nonneg fun j hj => mul_nonneg (hww i hi j hj) (sq_nonneg _)
    linarith
  · intro hM hU
    rw [OmegaI_eq]
    refine Finset.sum_nonneg fun i hi => Finset.sum_nonneg fun j hj => mul_nonneg (hww i hi j hj) ?_
    obtain ⟨h1, h2⟩ := hM i (Finset.mem_range.1 hi) j (Finset.mem_range.1 hj)
    have := sum_normSq_le (hU i (Finset.mem_range.1 hi)) (hU _ h1) h2
    unfold Mat
    linarith

/-- The invariant part does not change when centers are mixed by any unitary matrix at each k-point. -/
theorem C100_mixing (hn : ∀ i < s.nk, ∀ j < s.nEdge, s.nbr i j < s.nk) (W : ℕ → CM) (hW : ∀ l < s.nk, Isometry s.nCenters s.nCenters (W l)) :
    OmegaI (withU s fun l => mul s.nCenters (s.k l).U (W l)) = OmegaI s := by
  rw [OmegaI_eq, OmegaI_eq]
  refine Finset.sum_congr rfl fun i hi => Finset.sum_congr rfl fun j hj => ?_
  show (s.k i).weight * s.wb j * (s.nCenters - _) = _
  congr 2
  have e : Mat (withU s fun l => mul s.nCenters (s.k l).U (W l)) i j = mul s.nCenters (mul s.nCenters (dag (W i)) (Mat s i j)) (W (s.nbr i j)) := by
    show mul s.nBands (mul s.nBands (dag (mul s.nCenters (s.k i).U (W i))) (s.M0 i j)) (mul s.nCenters (s.k (s.nbr i j)).U (W (s.nbr i j))) = _
    unfold Mat
    rw [dag_mul]
    simp only [mul_assoc']
  show ∑ a ∈ range s.nCenters, ∑ c ∈ range s.nCenters, Complex.normSq (Mat (withU s _) i j a c) = _
  rw [e]
  exact sum_normSq_mix (hW i (Finset.mem_range.1 hi)) (hW _ (hn i (Finset.mem_range.1 hi) j (Finset.mem_range.1 hj)))

/-- Centers that are points are found where they are and have no spread, if they are closer to the assumed position than half a period in each direction of the formula; the total is the
squared distance of pinned centers from their assumed positions. -/
theorem C100_points (hf : Formula s) (r : ℕ → V3 ℝ)
    (hM : ∀ n < s.nCenters, ∀ i < s.nk, ∀ j < s.nEdge, Mat s i j n n = Complex.exp (-(Complex.I * (dot (r n) (s.b j) : ℝ))))
    (hr : ∀ n < s.nCenters, ∀ j < s.nEdge, |dot (r n - s.rPinned n) (s.b j)| < Real.pi) :
    (∀ n < s.nCenters, rExpect s n = r n ∧ rSqExpect s n = CellMap.lenSq (r n) ∧ spread s n = 0) ∧
    Omega s = ∑ n ∈ range s.nCenters, if s.pinned n then CellMap.lenSq (r n - s.rPinned n) else 0 := by
  have key : ∀ n < s.nCenters, rExp0 s n = r n - s.rPinned n ∧ rSq0 s n = CellMap.lenSq (r n - s.rPinned n) := by
    intro n hn
    have hA : ∀ i < s.nk, ∀ j < s.nEdge, (Mnn s i j n).arg = -dot (r n - s.rPinned n) (s.b j) ∧ Complex.normSq (Mnn s i j n) = 1 := by
      intro i hi j hj
      have e : Mnn s i j n = Complex.exp ((-dot (r n - s.rPinned n) (s.b j) : ℝ) * Complex.I) := by
        unfold Mnn
        rw [hM n hn i hi j hj, Tnn_exp, ← Complex.exp_add]
        congr 1
        simp only [dot, Pi.sub_apply]
        push_cast
        ring
      constructor
      · rw [e, arg_exp (by rw [abs_neg]; exact hr n hn j hj)]
      · rw [e, Complex.normSq_eq_norm_sq, Complex.norm_exp_ofReal_mul_I, one_pow]
    constructor
    · funext x
      rw [rExp0_apply, ← formula_vec hf (r n - s.rPinned n) x, ← Finset.sum_neg_distrib]
      refine Finset.sum_congr rfl fun i hi => ?_
      rw [← Finset.sum_neg_distrib]
      refine Finset.sum_congr rfl fun j hj => ?_
      rw [(hA i (Finset.mem_range.1 hi) j (Finset.mem_range.1 hj)).1]
      ring
    · have : CellMap.lenSq (r n - s.rPinned n) = dot (r n - s.rPinned n) (r n - s.rPinned n) := rfl
      rw [this, ← formula_dot hf]
      refine Finset.sum_congr rfl fun i hi => Finset.sum_congr rfl fun j hj => ?_
      obtain ⟨h1, h2⟩ := hA i (Finset.mem_range.1 hi) j (Finset.mem_range.1 hj)
      rw [h1, h2]
      ring
  have hx : ∀ n < s.nCenters, rExpect s n = r n ∧ rSqExpect s n = CellMap.lenSq (r n) := by
    intro n hn
    obtain ⟨h1, h2⟩ := key n hn
    have e : rExpect s n = r n := by
      unfold rExpect
      rw [h1]
      simp
    refine ⟨e, ?_⟩
    unfold rSqExpect
    rw [e, h1, h2]
    ring
  refine ⟨fun n hn => ⟨(hx n hn).1, (hx n hn).2, ?_⟩, ?_⟩
  · unfold spread
    rw [(hx n hn).1, (hx n hn).2, sub_self]
  · unfold Omega
    refine Finset.sum_congr rfl fun n hn => ?_
    obtain ⟨h1, h2⟩ := key n (Finset.mem_range.1 hn)
    unfold r0
    rw [h1, h2]
    split_ifs
    · simp [dot, CellMap.lenSq]
    · unfold dot CellMap.lenSq
      ring

/-- Assumed positions of centers only serve to choose branches of phases: with other assumed positions for which no phase leaves its branch, centers and spreads that are reported are the same,
and so is the total spread if no center is pinned. -/
theorem C100_origin (hf : Formula s) (p : ℕ → V3 ℝ) (h0 : ∀ n < s.nCenters, ∀ i < s.nk, ∀ j < s.nEdge, Mat s i j n n ≠ 0)
    (hp : ∀ n < s.nCenters, ∀ i < s.nk, ∀ j < s.nEdge, |(Mnn s i j n).arg + dot (p n - s.rPinned n) (s.b j)| < Real.pi) :
    (∀ n < s.nCenters, rExpect (withOrigin s p) n = rExpect s n ∧ rSqExpect (withOrigin s p) n = rSqExpect s n) ∧
    ((∀ n < s.nCenters, s.pinned n = false) → Omega (withOrigin s p) = Omega s) := by
  have key : ∀ n < s.nCenters, rExp0 (withOrigin s p) n = rExp0 s n - (p n - s.rPinned n) ∧
      rSq0 (withOrigin s p) n = rSq0 s n - 2 * dot (p n - s.rPinned n) (rExp0 s n) + CellMap.lenSq (p n - s.rPinned n) := by
    intro n hn
    have hA : ∀ i < s.nk, ∀ j < s.nEdge, (Mnn (withOrigin s p) i j n).arg = (Mnn s i j n).arg + dot (p n - s.rPinned n) (s.b j) ∧
        Complex.normSq (Mnn (withOrigin s p) i j n) = Complex.normSq (Mnn s i j n) := by
      intro i hi j hj
      have e : Mnn (withOrigin s p) i j n = Mnn s i j n * Complex.exp ((dot (p n - s.rPinned n) (s.b j) : ℝ) * Complex.I) := by
        unfold Mnn
        rw [Tnn_exp, Tnn_exp, mul_assoc, ← Complex.exp_add]
        show Mat s i j n n * Complex.exp ((dot (p n) (s.b j) : ℝ) * Complex.I) = _
        congr 2
        simp only [dot, Pi.sub_apply]
        push_cast
        ring
      have hz : Mnn s i j n ≠ 0 := by
        unfold Mnn
        refine mul_ne_zero (h0 n hn i hi j hj) ?_
        rw [Tnn_exp]
        exact Complex.exp_ne_zero _
      refine ⟨by rw [e, arg_turn hz (hp n hn i hi j hj)], ?_⟩
      rw [e, Complex.normSq_mul, Complex.normSq_eq_norm_sq (Complex.exp _), Complex.norm_exp_ofReal_mul_I, one_pow, mul_one]
    constructor
    · funext x
      rw [Pi.sub_apply, rExp0_apply, rExp0_apply, ← formula_vec hf (p n - s.rPinned n) x, ← neg_add', ← Finset.sum_add_distrib]
      congr 1
      refine Finset.sum_congr rfl fun i hi => ?_
      rw [← Finset.sum_add_distrib]
      refine Finset.sum_congr rfl fun j hj => ?_
      rw [(hA i (Finset.mem_range.1 hi) j (Finset.mem_range.1 hj)).1]
      show (s.k i).weight * s.wb j * _ * s.b j x = _
      ring
    · have h2 := rExp0_dot s n (p n - s.rPinned n)
      have h3 := formula_dot hf (p n - s.rPinned n) (p n - s.rPinned n)
      rw [show CellMap.lenSq (p n - s.rPinned n) = dot (p n - s.rPinned n) (p n - s.rPinned n) from rfl, ← h3]
      have e4 : rSq0 s n - 2 * dot (p n - s.rPinned n) (rExp0 s n) = rSq0 s n + 2 * -dot (p n - s.rPinned n) (rExp0 s n) := by ring
      rw [e4, ← h2]
      unfold rSq0
      simp only [Finset.mul_sum, ← Finset.sum_add_distrib]
      refine Finset.sum_congr rfl fun i hi => Finset.sum_congr rfl fun j hj => ?_
      obtain ⟨h5, h6⟩ := hA i (Finset.mem_range.1 hi) j (Finset.mem_range.1 hj)
      rw [h5, h6]
      show (s.k i).weight * s.wb j * _ = _
      ring
  have hx : ∀ n < s.nCenters, rExpect (withOrigin s p) n = rExpect s n ∧ rSqExpect (withOrigin s p) n = rSqExpect s n := by
    intro n hn
    obtain ⟨h1, h2⟩ := key n hn
    have e : rExpect (withOrigin s p) n = rExpect s n := by
      unfold rExpect
      rw [h1]
      show _ + p n = _
      funext x
      simp only [Pi.add_apply, Pi.sub_apply]
      ring
    refine ⟨e, ?_⟩
    unfold rSqExpect
    rw [e, h1, h2]
    simp only [CellMap.lenSq, dot, Pi.sub_apply]
    ring
  refine ⟨hx, fun hp => ?_⟩
  unfold Omega
  refine Finset.sum_congr rfl fun n hn => ?_
  obtain ⟨h1, h2⟩ := key n (Finset.mem_range.1 hn)
  unfold r0
  rw [if_neg (by show ¬ s.pinned n = true; simp [hp n (Finset.mem_range.1 hn)]), if_neg (by simp [hp n (Finset.mem_range.1 hn)])]
  rw [h1, h2]
  simp only [CellMap.lenSq, dot, Pi.sub_apply]
  ring

/-! ## A case that meets the hypotheses: two bands, one center, one k-point with three edges to itself -/

/-- Unit matrix. -/
def eye : CM := fun a c => if a = c then 1 else 0

/-- The case, with overlaps `m j` on edge `j` between equal bands and `e` between different ones. -/
def exS (m : ℕ → ℂ) (e : ℂ) : Sys where
  nBands := 2
  nCenters := 1
  nFrozen := 0
  nk := 1
  k := fun _ => { weight := 1, nIn := 2, nFixed := 0, U1 := eye, U2 := eye, U := mul 2 eye eye }
  nEdge := 3
  b := fun j x => if (x : ℕ) = j then 1 else 0
  wb := fun _ => 1
  nbr := fun _ _ => 0
  M0 := fun _ j a c => if a = c then m j else e
  pinned := fun _ => false
  rPinned := fun _ => 0

theorem eye_isometry (n : ℕ) : Isometry n n eye := by
  intro a ha c _
  refine Eq.trans (Finset.sum_congr rfl fun q _ => ?_) (sum_delta ha fun q => eye q c)
  congr 1
  unfold dag eye
  by_cases h : q = a
  · simp [h]
  · simp [h, Ne.symm h]

theorem exS_shape (m : ℕ → ℂ) (e : ℂ) : Shape (exS m e) := ⟨fun _ _ => by simp [exS], fun _ _ => by simp [exS], fun _ _ => by simp [exS], fun _ _ _ _ => by simp [exS]⟩

theorem exS_rot (m : ℕ → ℂ) (e : ℂ) : Rot (exS m e) := ⟨fun _ _ => rfl, fun _ _ => eye_isometry 2, fun _ _ _ _ _ _ _ => rfl⟩

theorem exS_formula (m : ℕ → ℂ) (e : ℂ) : Formula (exS m e) := ⟨by simp [exS], fun x y => by
  simp only [exS, Finset.sum_range_succ, Finset.sum_range_zero]
  fin_cases x <;> fin_cases y <;> simp⟩

theorem exS_Mat (m : ℕ → ℂ) (e : ℂ) (i j : ℕ) : Mat (exS m e) i j 0 0 = m j := by
  simp [Mat, exS, mul, dag, eye, Finset.sum_range_succ]

theorem exS_Mnn (m : ℕ → ℂ) (e : ℂ) (i j : ℕ) : Mnn (exS m e) i j 0 = m j := by
  unfold Mnn
  rw [exS_Mat]
  simp [Tnn, exS, dot, Complex.ext_iff]

/-- LAPACK is modelled by an actual eigenvalue decomposition. -/
theorem exS_diag : ∀ n, DiagOK ((ElecMin.std n).eig) := fun _ A hA => ElecMin.std_OK.eig A hA

example : Dir (exS (fun _ => 1 / 2) (Complex.I / 4)) ⟨fun _ _ _ => 1 + Complex.I, fun _ _ _ => 3⟩ ∧
    ∀ n < 1, ∀ i < 1, ∀ j < 3, Mnn (exS (fun _ => 1 / 2) (Complex.I / 4)) i j n ∈ Complex.slitPlane := by
  refine ⟨fun l _ a _ c _ => (Complex.conj_ofNat 3).symm, fun n hn i _ j _ => ?_⟩
  obtain rfl : n = 0 := by omega
  rw [exS_Mnn]
  exact Or.inl (by norm_num)

example : HasDerivAt (fun α : ℝ => Omega (step (exS (fun _ => 1 / 2) (Complex.I / 4)) (fun n => (ElecMin.std n).eig) ⟨fun _ _ _ => 1 + Complex.I, fun _ _ _ => 3⟩ α))
    (gdot (exS (fun _ => 1 / 2) (Complex.I / 4)) (grad (exS (fun _ => 1 / 2) (Complex.I / 4))) ⟨fun _ _ _ => 1 + Complex.I, fun _ _ _ => 3⟩) 0 :=
  C100_gradient exS_diag (exS_shape _ _) (exS_rot _ _) (fun l _ a _ c _ => (Complex.conj_ofNat 3).symm) fun n hn i _ j _ => by
    obtain rfl : n = 0 := by
      simp only [exS] at hn
      omega
    rw [exS_Mnn]
    exact Or.inl (by norm_num)

example : ∀ l < (exS (fun _ => 1 / 2) (Complex.I / 4)).nk, Isometry 2 2 ((exS (fun _ => 1 / 2) (Complex.I / 4)).k l).U1 := fun _ _ => eye_isometry 2

example : NonNeg (exS (fun _ => 1 / 2) 0) ∧ Contraction 2 ((exS (fun _ => 1 / 2) 0).M0 0 0) := by
  refine ⟨⟨fun _ _ => by simp [exS], fun _ _ => by simp [exS]⟩, fun v => ?_⟩
  simp only [exS, Finset.sum_range_succ, Finset.sum_range_zero, zero_add]
  simp [Complex.normSq_mul]
  have h1 := Complex.normSq_nonneg (v 0)
  have h2 := Complex.normSq_nonneg (v 1)
  norm_num [Complex.normSq_apply] at h1 h2 ⊢
  linarith

/-- A point at (1, 2, 3). -/
example : rExpect (exS (fun j => Complex.exp (-(Complex.I * ((if j = 0 then 1 else if j = 1 then 2 else 3 : ℝ) : ℂ)))) 0) 0 = vec 1 2 3 := by
  have h := C100_points (s := exS (fun j => Complex.exp (-(Complex.I * ((if j = 0 then 1 else if j = 1 then 2 else 3 : ℝ) : ℂ)))) 0) (exS_formula _ _) (fun _ => vec 1 2 3) ?_ ?_
  · exact (h.1 0 (by simp [exS])).1
  · intro n hn i _ j hj
    obtain rfl : n = 0 := by
      simp only [exS] at hn
      omega
    rw [exS_Mat]
    simp only [exS] at hj
    obtain rfl | rfl | rfl : j = 0 ∨ j = 1 ∨ j = 2 := by omega
    all_goals simp [exS, dot, vec]
  · intro n _ j hj
    have := Real.pi_gt_three
    simp only [exS] at hj
    obtain rfl | rfl | rfl : j = 0 ∨ j = 1 ∨ j = 2 := by omega
    all_goals
      simp [exS, dot, vec]
      linarith

end
end Jdftx.Wan
