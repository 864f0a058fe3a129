import Verif.Lemmas.WannierGrad
import Mathlib.Analysis.SpecialFunctions.Complex.LogDeriv
import Mathlib.LinearAlgebra.Matrix.Trace

/-! # Lemmas for the spread of Wannier functions: derivatives of the spread, and sums with the finite-difference formula -/
namespace Jdftx.Wan
noncomputable section
open M3 Finset Jdftx.MatFn
open scoped ComplexConjugate
open MatFunc (Diag DiagOK)

variable {d : ∀ n, Diag n} {s : Sys} {g : Grad}

theorem arg_deriv {z : ℝ → ℂ} {z' : ℂ} {t : ℝ} (h : HasDerivAt z z' t) (h0 : z t ∈ Complex.slitPlane) : HasDerivAt (fun u => (z u).arg) (z' / z t).im t := by
  have h1 := h.clog_real h0
  have h2 := (Complex.imCLM.hasFDerivAt.comp_hasDerivAt t h1)
  have e : (fun u => (z u).arg) = (⇑Complex.imCLM ∘ fun u => Complex.log (z u)) := by
    funext u
    simp [Complex.log_im]
  rw [e]
  exact h2

theorem normSq_deriv {z : ℝ → ℂ} {z' : ℂ} {t : ℝ} (h : HasDerivAt z z' t) : HasDerivAt (fun u => Complex.normSq (z u)) (2 * (conj (z t) * z').re) t := by
  have h1 := re_deriv ((conj_deriv h).mul h)
  have e : (fun u => Complex.normSq (z u)) = fun u => (((fun t => conj (z t)) * z) u).re := by
    funext u
    simp [Complex.normSq_apply]
  rw [e]
  refine h1.congr_deriv ?_
  simp only [Complex.add_re, Complex.mul_re, Complex.conj_re, Complex.conj_im]
  ring

theorem dot_sum (p : V3 ℝ) (A : Finset ℕ) (f : ℕ → V3 ℝ) : dot (∑ i ∈ A, f i) p = ∑ i ∈ A, dot (f i) p := by
  simp only [dot, Finset.sum_apply, Finset.sum_add_distrib, Finset.sum_mul]

theorem dot_comm' (p q : V3 ℝ) : dot p q = dot q p := by
  unfold dot; ring

/-- Rate of change of `Mnn`. -/
def dMnn (s : Sys) (g : Grad) (i j n : ℕ) : ℂ := dMat s g i j n n * Tnn s j n

theorem Omega_deriv (hd : ∀ n, DiagOK (d n)) (hs : Shape s) (hr : Rot s) (hg : Dir s g)
    (hM : ∀ n < s.nCenters, ∀ i < s.nk, ∀ j < s.nEdge, Mnn s i j n ∈ Complex.slitPlane) :
    HasDerivAt (fun α : ℝ => Omega (step s d g α)) (∑ i ∈ range s.nk, ∑ j ∈ range s.nEdge, ∑ n ∈ range s.nCenters, OmegaM s i j n * dMat s g i j n n).re 0 := by
  have hMn : ∀ n < s.nCenters, ∀ i < s.nk, ∀ j < s.nEdge, HasDerivAt (fun α : ℝ => Mnn (step s d g α) i j n) (dMnn s g i j n) 0 ∧ Mnn (step s d g 0) i j n = Mnn s i j n := by
    intro n hn i hi j hj
    have h := Mat_deriv (a := n) (c := n) hd hs hr hg hi hj (by have := hs.centers i hi; omega) (by have := hs.centers _ (hs.nbr i hi j hj); omega)
    refine ⟨h.1.mul_const (Tnn s j n), ?_⟩
    show Mat (step s d g 0) i j n n * Tnn s j n = _
    rw [h.2]
    rfl
  have hA : ∀ n < s.nCenters, ∀ i < s.nk, ∀ j < s.nEdge, HasDerivAt (fun α : ℝ => (Mnn (step s d g α) i j n).arg) (dMnn s g i j n / Mnn s i j n).im 0 := by
    intro n hn i hi j hj
    have h := hMn n hn i hi j hj
    have := arg_deriv h.1 (by rw [h.2]; exact hM n hn i hi j hj)
    rwa [h.2] at this
  have hw : ∀ α i, ((step s d g α).k i).weight = (s.k i).weight := fun _ _ => rfl
  have hR : ∀ n < s.nCenters, ∀ x : Fin 3, HasDerivAt (fun α : ℝ => rExp0 (step s d g α) n x)
      (∑ i ∈ range s.nk, ∑ j ∈ range s.nEdge, -((s.k i).weight * s.wb j * (dMnn s g i j n / Mnn s i j n).im * s.b j x)) 0 := by
    intro n hn x
    have e : (fun α : ℝ => rExp0 (step s d g α) n x) = fun α => ∑ i ∈ range s.nk, ∑ j ∈ range s.nEdge, -((s.k i).weight * s.wb j * (Mnn (step s d g α) i j n).arg * s.b j x) := by
      funext α
      simp only [rExp0, Finset.sum_apply, Pi.neg_apply, Pi.smul_apply, smul_eq_mul]
      rfl
    rw [e]
    refine HasDerivAt.fun_sum fun i hi => HasDerivAt.fun_sum fun j hj => ?_
    exact (((hA n hn i (Finset.mem_range.1 hi) j (Finset.mem_range.1 hj)).const_mul _).mul_const _).neg
  have hS : ∀ n < s.nCenters, HasDerivAt (fun α : ℝ => rSq0 (step s d g α) n) (∑ i ∈ range s.nk, ∑ j ∈ range s.nEdge, (s.k i).weight * s.wb j *
      (2 * (Mnn s i j n).arg * (dMnn s g i j n / Mnn s i j n).im - 2 * (conj (Mnn s i j n) * dMnn s g i j n).re)) 0 := by
    intro n hn
    have e : (fun α : ℝ => rSq0 (step s d g α) n) = fun α => ∑ i ∈ range s.nk, ∑ j ∈ range s.nEdge, (s.k i).weight * s.wb j *
        ((Mnn (step s d g α) i j n).arg * (Mnn (step s d g α) i j n).arg + 1 - Complex.normSq (Mnn (step s d g α) i j n)) := rfl
    rw [e]
    refine HasDerivAt.fun_sum fun i hi => HasDerivAt.fun_sum fun j hj => ?_
    have h1 := hA n hn i (Finset.mem_range.1 hi) j (Finset.mem_range.1 hj)
    have h2 := hMn n hn i (Finset.mem_range.1 hi) j (Finset.mem_range.1 hj)
    have h3 := ((((h1.mul h1).add_const 1).sub (normSq_deriv h2.1)).const_mul ((s.k i).weight * s.wb j))
    refine h3.congr_deriv ?_
    rw [h2.2]
    ring
  have h0 : ∀ n < s.nCenters, ∀ x, rExp0 (step s d g 0) n x = rExp0 s n x := by
    intro n hn x
    simp only [rExp0, Finset.sum_apply, Pi.neg_apply, Pi.smul_apply, smul_eq_mul]
    refine Finset.sum_congr rfl fun i hi => Finset.sum_congr rfl fun j hj => ?_
    rw [(hMn n hn i (Finset.mem_range.1 hi) j (Finset.mem_range.1 hj)).2]
    rfl
  have hO : ∀ n < s.nCenters, HasDerivAt (fun α : ℝ => rSq0 (step s d g α) n - 2 * dot (rExp0 (step s d g α) n) (r0 (step s d g α) n) + CellMap.lenSq (r0 (step s d g α) n))
      (∑ i ∈ range s.nk, ∑ j ∈ range s.nEdge, (OmegaM s i j n * dMat s g i j n n).re) 0 := by
    intro n hn
    have key : ∀ i j, (OmegaM s i j n * dMat s g i j n n).re = (s.k i).weight * s.wb j *
        (2 * (Mnn s i j n).arg * (dMnn s g i j n / Mnn s i j n).im - 2 * (conj (Mnn s i j n) * dMnn s g i j n).re) +
        2 * ((s.k i).weight * s.wb j * (dMnn s g i j n / Mnn s i j n).im * dot (r0 s n) (s.b j)) := by
      intro i j
      have : OmegaM s i j n * dMat s g i j n n = ((2 * (s.k i).weight * s.wb j : ℝ) : ℂ) *
          ((((Mnn s i j n).arg + dot (r0 s n) (s.b j) : ℝ) : ℂ) * (-Complex.I * (dMnn s g i j n / Mnn s i j n)) - conj (Mnn s i j n) * dMnn s g i j n) := by
        unfold OmegaM dMnn
        push_cast
        ring
      rw [this, Complex.re_ofReal_mul, Complex.sub_re, Complex.re_ofReal_mul]
      have hI : ∀ z : ℂ, (-Complex.I * z).re = z.im := fun z => by simp
      rw [hI]
      ring
    simp only [key, Finset.sum_add_distrib]
    by_cases hp : s.pinned n = true
    · have e : ∀ α, r0 (step s d g α) n = 0 := fun α => by
        unfold r0
        rw [if_pos (show (step s d g α).pinned n = true from hp)]
      simp only [e]
      have e0 : r0 s n = 0 := by unfold r0; rw [if_pos hp]
      rw [e0]
      refine ((hS n hn).congr_deriv ?_).congr_of_eventuallyEq ?_
      · simp [dot]
      · refine Filter.Eventually.of_forall fun α => ?_
        simp [dot, CellMap.lenSq]
    · have e : ∀ α, r0 (step s d g α) n = rExp0 (step s d g α) n := fun α => by
        unfold r0
        rw [if_neg (show ¬ (step s d g α).pinned n = true from hp)]
      simp only [e]
      have e0 : r0 s n = rExp0 s n := by unfold r0; rw [if_neg hp]
      rw [e0]
      have hx := hR n hn
      have hq : ∀ x : Fin 3, HasDerivAt (fun α : ℝ => rExp0 (step s d g α) n x * rExp0 (step s d g α) n x)
          (2 * (rExp0 s n x * ∑ i ∈ range s.nk, ∑ j ∈ range s.nEdge, -((s.k i).weight * s.wb j * (dMnn s g i j n / Mnn s i j n).im * s.b j x))) 0 := by
        intro x
        refine ((hx x).mul (hx x)).congr_deriv ?_
        rw [h0 n hn x]
        ring
      have h4 := (hS n hn).sub (((hq 0).add (hq 1)).add (hq 2))
      refine (h4.congr_deriv ?_).congr_of_eventuallyEq ?_
      · have e5 : ∀ x : Fin 3, rExp0 s n x * ∑ i ∈ range s.nk, ∑ j ∈ range s.nEdge, -((s.k i).weight * s.wb j * (dMnn s g i j n / Mnn s i j n).im * s.b j x) =
            -∑ i ∈ range s.nk, ∑ j ∈ range s.nEdge, (s.k i).weight * s.wb j * (dMnn s g i j n / Mnn s i j n).im * (rExp0 s n x * s.b j x) := by
          intro x
          simp only [Finset.mul_sum, ← Finset.sum_neg_distrib]
          exact Finset.sum_congr rfl fun i _ => Finset.sum_congr rfl fun j _ => by ring
        rw [e5, e5, e5]
        simp only [dot, mul_add, Finset.sum_add_distrib, ← Finset.mul_sum]
        ring
      · refine Filter.Eventually.of_forall fun α => ?_
        simp only [dot, CellMap.lenSq, Pi.sub_apply, Pi.add_apply]
        ring
  have hf := HasDerivAt.fun_sum (u := range s.nCenters) fun n hn => hO n (Finset.mem_range.1 hn)
  refine (hf.congr_deriv ?_)
  rw [Complex.re_sum, Finset.sum_comm]
  refine Finset.sum_congr rfl fun i _ => ?_
  rw [Complex.re_sum, Finset.sum_comm]
  exact Finset.sum_congr rfl fun j _ => by rw [Complex.re_sum]

theorem toGrad_congr {dU dU' : ℕ → CM} (h : ∀ l, ∀ a < s.nCenters, ∀ c, dU l a c = dU' l a c) : toGrad s dU = toGrad s dU' := by
  have : ∀ l, OmegaB s dU l = OmegaB s dU' l := by
    intro l
    funext a c
    unfold OmegaB mul
    congr 1
    refine Finset.sum_congr rfl fun q _ => ?_
    congr 1
    exact Finset.sum_congr rfl fun p hp => by rw [h l p (Finset.mem_range.1 hp)]
  unfold toGrad
  simp only [this]

theorem accum_diag : toGrad s (accum s fun i j a c => if a = c then OmegaM s i j c else 0) = grad s := by
  unfold grad
  refine toGrad_congr fun l a ha c => ?_
  unfold accum OmegaUdotU
  refine Finset.sum_congr rfl fun i _ => Finset.sum_congr rfl fun j _ => ?_
  congr 1
  · congr 1
    congr 1
    simp only [mul_ite, mul_zero]
    rw [Finset.sum_ite_eq']
    simp [ha]
  · congr 1
    simp only [ite_mul, zero_mul]
    rw [Finset.sum_ite_eq]
    simp [ha]

theorem OmegaI_eq (s : Sys) : OmegaI s = ∑ i ∈ range s.nk, ∑ j ∈ range s.nEdge,
    (s.k i).weight * s.wb j * (s.nCenters - ∑ a ∈ range s.nCenters, ∑ c ∈ range s.nCenters, Complex.normSq (Mat s i j a c)) := by
  unfold OmegaI
  refine Finset.sum_congr rfl fun i _ => Finset.sum_congr rfl fun j _ => ?_
  congr 2
  rw [Complex.re_sum]
  refine Finset.sum_congr rfl fun a _ => ?_
  unfold mul dag
  rw [Complex.re_sum]
  refine Finset.sum_congr rfl fun c _ => ?_
  rw [Complex.mul_conj, Complex.ofReal_re]

theorem OmegaI_deriv (hd : ∀ n, DiagOK (d n)) (hs : Shape s) (hr : Rot s) (hg : Dir s g) :
    HasDerivAt (fun α : ℝ => OmegaI (step s d g α)) (∑ i ∈ range s.nk, ∑ j ∈ range s.nEdge, ∑ a ∈ range s.nCenters, ∑ c ∈ range s.nCenters,
      (2 * (s.k i).weight * s.wb j * -dag (Mat s i j) a c) * dMat s g i j c a).re 0 := by
  simp only [OmegaI_eq]
  have h := HasDerivAt.fun_sum (u := range s.nk) fun i hi => HasDerivAt.fun_sum (u := range s.nEdge) fun j hj =>
    (((hasDerivAt_const (0 : ℝ) (s.nCenters : ℝ)).sub (HasDerivAt.fun_sum (u := range s.nCenters) fun a ha => HasDerivAt.fun_sum (u := range s.nCenters) fun c hc =>
      normSq_deriv (Mat_deriv hd hs hr hg (Finset.mem_range.1 hi) (Finset.mem_range.1 hj)
        (lt_of_lt_of_le (Finset.mem_range.1 ha) (hs.centers i (Finset.mem_range.1 hi)))
        (lt_of_lt_of_le (Finset.mem_range.1 hc) (hs.centers _ (hs.nbr i (Finset.mem_range.1 hi) j (Finset.mem_range.1 hj))))).1)).const_mul ((s.k i).weight * s.wb j))
  refine h.congr_deriv ?_
  rw [Complex.re_sum]
  refine Finset.sum_congr rfl fun i hi => ?_
  rw [Complex.re_sum]
  refine Finset.sum_congr rfl fun j hj => ?_
  rw [Finset.sum_comm, zero_sub, ← Finset.sum_neg_distrib, Finset.mul_sum, Complex.re_sum]
  refine Finset.sum_congr rfl fun c hc => ?_
  rw [← Finset.sum_neg_distrib, Finset.mul_sum, Complex.re_sum]
  refine Finset.sum_congr rfl fun a ha => ?_
  rw [(Mat_deriv hd hs hr hg (Finset.mem_range.1 hi) (Finset.mem_range.1 hj)
        (lt_of_lt_of_le (Finset.mem_range.1 ha) (hs.centers i (Finset.mem_range.1 hi)))
        (lt_of_lt_of_le (Finset.mem_range.1 hc) (hs.centers _ (hs.nbr i (Finset.mem_range.1 hi) j (Finset.mem_range.1 hj))))).2]
  rw [show (2 * (s.k i).weight * s.wb j * -dag (Mat s i j) c a) * dMat s g i j a c = ((-(2 * (s.k i).weight * s.wb j) : ℝ) : ℂ) * (conj (Mat s i j a c) * dMat s g i j a c) from by
    unfold dag; push_cast; ring]
  rw [Complex.re_ofReal_mul]
  ring

/-! ## Sums with the formula -/

theorem formula_xy (hf : Formula s) (x y : Fin 3) : ∑ i ∈ range s.nk, ∑ j ∈ range s.nEdge, (s.k i).weight * s.wb j * (s.b j x * s.b j y) = if x = y then 1 else 0 := by
  rw [← hf.exact x y, ← one_mul (∑ j ∈ range s.nEdge, s.wb j * s.b j x * s.b j y), ← hf.weights, Finset.sum_mul_sum]
  exact Finset.sum_congr rfl fun i _ => Finset.sum_congr rfl fun j _ => by ring

theorem formula_vec (hf : Formula s) (p : V3 ℝ) (x : Fin 3) : ∑ i ∈ range s.nk, ∑ j ∈ range s.nEdge, (s.k i).weight * s.wb j * dot p (s.b j) * s.b j x = p x := by
  have e : ∀ i j, (s.k i).weight * s.wb j * dot p (s.b j) * s.b j x = p 0 * ((s.k i).weight * s.wb j * (s.b j 0 * s.b j x)) + p 1 * ((s.k i).weight * s.wb j * (s.b j 1 * s.b j x))
      + p 2 * ((s.k i).weight * s.wb j * (s.b j 2 * s.b j x)) := fun i j => by unfold dot; ring
  simp only [e, Finset.sum_add_distrib, ← Finset.mul_sum, formula_xy hf]
  fin_cases x <;> simp

theorem formula_dot (hf : Formula s) (p q : V3 ℝ) : ∑ i ∈ range s.nk, ∑ j ∈ range s.nEdge, (s.k i).weight * s.wb j * (dot p (s.b j) * dot q (s.b j)) = dot p q := by
  have e : ∀ i j, (s.k i).weight * s.wb j * (dot p (s.b j) * dot q (s.b j)) = q 0 * ((s.k i).weight * s.wb j * dot p (s.b j) * s.b j 0) +
      q 1 * ((s.k i).weight * s.wb j * dot p (s.b j) * s.b j 1) + q 2 * ((s.k i).weight * s.wb j * dot p (s.b j) * s.b j 2) := fun i j => by
    rw [show dot q (s.b j) = q 0 * s.b j 0 + q 1 * s.b j 1 + q 2 * s.b j 2 from rfl]; ring
  simp only [e, Finset.sum_add_distrib, ← Finset.mul_sum, formula_vec hf]
  unfold dot; ring

theorem rExp0_apply (s : Sys) (n : ℕ) (x : Fin 3) : rExp0 s n x = -∑ i ∈ range s.nk, ∑ j ∈ range s.nEdge, (s.k i).weight * s.wb j * (Mnn s i j n).arg * s.b j x := by
  simp only [rExp0, Finset.sum_apply, Pi.neg_apply, Pi.smul_apply, smul_eq_mul, Finset.sum_neg_distrib]

theorem rExp0_dot (s : Sys) (n : ℕ) (p : V3 ℝ) : ∑ i ∈ range s.nk, ∑ j ∈ range s.nEdge, (s.k i).weight * s.wb j * ((Mnn s i j n).arg * dot p (s.b j)) = -dot p (rExp0 s n) := by
  have e : ∀ i j, (s.k i).weight * s.wb j * ((Mnn s i j n).arg * dot p (s.b j)) = p 0 * ((s.k i).weight * s.wb j * (Mnn s i j n).arg * s.b j 0) +
      p 1 * ((s.k i).weight * s.wb j * (Mnn s i j n).arg * s.b j 1) + p 2 * ((s.k i).weight * s.wb j * (Mnn s i j n).arg * s.b j 2) := fun i j => by
    unfold dot; ring
  simp only [e, Finset.sum_add_distrib, ← Finset.mul_sum]
  unfold dot
  rw [rExp0_apply, rExp0_apply, rExp0_apply]
  ring

theorem Tnn_normSq (s : Sys) (j n : ℕ) : Complex.normSq (Tnn s j n) = 1 := by
  unfold Tnn
  rw [Complex.normSq_mk]
  have := Real.cos_sq_add_sin_sq (dot (s.rPinned n) (s.b j))
  linarith [this]

theorem Mnn_normSq (s : Sys) (i j n : ℕ) : Complex.normSq (Mnn s i j n) = Complex.normSq (Mat s i j n n) := by
  unfold Mnn
  rw [Complex.normSq_mul, Tnn_normSq, mul_one]

theorem Tnn_exp (s : Sys) (j n : ℕ) : Tnn s j n = Complex.exp ((dot (s.rPinned n) (s.b j) : ℝ) * Complex.I) := by
  rw [Complex.exp_mul_I]
  apply Complex.ext <;> simp [Tnn, ← Complex.ofReal_cos, ← Complex.ofReal_sin]

theorem arg_exp {θ : ℝ} (h : |θ| < Real.pi) : (Complex.exp ((θ : ℝ) * Complex.I)).arg = θ := by
  rw [Complex.exp_mul_I]
  exact Complex.arg_cos_add_sin_mul_I ⟨by linarith [(abs_lt.1 h).1], le_of_lt (abs_lt.1 h).2⟩

/-- Changing the phase of a number without crossing the branch cut. -/
theorem arg_turn {z : ℂ} (hz : z ≠ 0) {θ : ℝ} (h : |z.arg + θ| < Real.pi) : (z * Complex.exp ((θ : ℝ) * Complex.I)).arg = z.arg + θ := by
  have h1 : z * Complex.exp ((θ : ℝ) * Complex.I) = (‖z‖ : ℝ) * Complex.exp (((z.arg + θ : ℝ) : ℂ) * Complex.I) := by
    conv_lhs => rw [← Complex.norm_mul_exp_arg_mul_I z]
    rw [mul_assoc, ← Complex.exp_add]
    congr 2
    push_cast
    ring
  rw [h1, Complex.arg_real_mul _ (norm_pos_iff.2 hz), arg_exp h]

end
end Jdftx.Wan
