import Mathlib.LinearAlgebra.Lagrange
import Mathlib.LinearAlgebra.Matrix.ConjTranspose
import Mathlib.Topology.Instances.Matrix
import Mathlib.Topology.Algebra.Polynomial
import Mathlib.Analysis.Calculus.DSlope
import Mathlib.Analysis.Calculus.Deriv.Mul
import Mathlib.Analysis.Complex.Basic

/-!
# Derivative of a function of a Hermitian matrix

For a path `K t` of Hermitian matrices through a diagonal one, the matrix function `V f(κ) V†` formed from any eigendecomposition is
differentiable at that point; its derivative multiplies each entry of `K'` by the divided difference of `f`.
-/
set_option linter.unusedSectionVars false
namespace Jdftx.MatFn
open Matrix Filter Topology ComplexConjugate

variable {n : Type*} [Fintype n] [DecidableEq n]

/-- `V g(κ) V†`. -/
def fn (V : Matrix n n ℂ) (κ : n → ℝ) (g : ℝ → ℂ) : Matrix n n ℂ := V * diagonal (fun j => g (κ j)) * Vᴴ

/-- `V` and `κ` are eigenvectors and eigenvalues of `K`. -/
structure Eig (K V : Matrix n n ℂ) (κ : n → ℝ) : Prop where
  left : Vᴴ * V = 1
  right : V * Vᴴ = 1
  eq : K * V = V * diagonal (fun j => (κ j : ℂ))

theorem fn_apply (V : Matrix n n ℂ) (κ : n → ℝ) (g : ℝ → ℂ) (i l : n) : fn V κ g i l = ∑ j, V i j * g (κ j) * conj (V l j) := by
  unfold fn
  simp [Matrix.mul_apply, diagonal_apply, conjTranspose_apply]

theorem Eig.entry_le {K V : Matrix n n ℂ} {κ : n → ℝ} (h : Eig K V κ) (i j : n) : ‖V i j‖ ≤ 1 := by
  have h1 : ∑ j, (‖V i j‖ ^ 2 : ℝ) = 1 := by
    have := congrFun (congrFun h.right i) i
    rw [Matrix.mul_apply, one_apply_eq] at this
    have h2 := congrArg Complex.re this
    rw [Complex.re_sum, Complex.one_re] at h2
    rw [← h2]
    refine Finset.sum_congr rfl fun j _ => ?_
    rw [conjTranspose_apply, Complex.star_def, Complex.mul_conj, Complex.ofReal_re, Complex.normSq_eq_norm_sq]
  have h2 : ‖V i j‖ ^ 2 ≤ 1 := by
    rw [← h1]
    exact Finset.single_le_sum (f := fun j => ‖V i j‖ ^ 2) (fun j _ => sq_nonneg _) (Finset.mem_univ j)
  have := norm_nonneg (V i j)
  nlinarith

theorem Eig.fn_le {K V : Matrix n n ℂ} {κ : n → ℝ} (h : Eig K V κ) (g : ℝ → ℂ) (c : ℝ) (hc : ∀ j, ‖g (κ j)‖ ≤ c) (i l : n) :
    ‖fn V κ g i l‖ ≤ Fintype.card n * c := by
  rw [fn_apply]
  refine (norm_sum_le _ _).trans ?_
  have : ∀ j ∈ Finset.univ, ‖V i j * g (κ j) * conj (V l j)‖ ≤ c := by
    intro j _
    rw [norm_mul, norm_mul, RCLike.norm_conj]
    have h1 := h.entry_le i j
    have h2 := h.entry_le l j
    have h3 := hc j
    have := norm_nonneg (V i j); have := norm_nonneg (V l j); have := norm_nonneg (g (κ j))
    have hc0 : 0 ≤ c := this.trans h3
    calc ‖V i j‖ * ‖g (κ j)‖ * ‖V l j‖ ≤ 1 * c * 1 := by gcongr
      _ = c := by ring
  refine (Finset.sum_le_sum this).trans ?_
  simp

theorem Eig.fn_pow {K V : Matrix n n ℂ} {κ : n → ℝ} (h : Eig K V κ) (k : ℕ) : fn V κ (fun x => (x : ℂ) ^ k) = K ^ k := by
  have h1 : K ^ k * V = V * diagonal (fun j => ((κ j : ℂ)) ^ k) := by
    induction k with
    | zero => simp
    | succ k ih =>
      rw [pow_succ', Matrix.mul_assoc, ih, ← Matrix.mul_assoc, h.eq, Matrix.mul_assoc, diagonal_mul_diagonal]
      congr 2; funext j; ring
  unfold fn
  rw [← h1, Matrix.mul_assoc, h.right, Matrix.mul_one]

theorem fn_sum {ι : Type*} (s : Finset ι) (V : Matrix n n ℂ) (κ : n → ℝ) (g : ι → ℝ → ℂ) : fn V κ (fun x => ∑ a ∈ s, g a x) = ∑ a ∈ s, fn V κ (g a) := by
  ext i l
  rw [Matrix.sum_apply, fn_apply]
  simp only [fn_apply]
  rw [Finset.sum_comm]
  refine Finset.sum_congr rfl fun j _ => ?_
  rw [Finset.mul_sum, Finset.sum_mul]

theorem fn_smul (V : Matrix n n ℂ) (κ : n → ℝ) (c : ℂ) (g : ℝ → ℂ) : fn V κ (fun x => c * g x) = c • fn V κ g := by
  ext i l
  rw [Matrix.smul_apply, fn_apply, fn_apply, smul_eq_mul, Finset.mul_sum]
  exact Finset.sum_congr rfl fun j _ => by ring

theorem Eig.fn_poly {K V : Matrix n n ℂ} {κ : n → ℝ} (h : Eig K V κ) (p : Polynomial ℂ) :
    fn V κ (fun x => p.eval (x : ℂ)) = Polynomial.aeval K p := by
  simp only [Polynomial.eval_eq_sum_range]
  rw [fn_sum, Polynomial.aeval_eq_sum_range]
  refine Finset.sum_congr rfl fun k _ => ?_
  rw [fn_smul, h.fn_pow]

/-- Every eigenvalue of `K` is close to one of the diagonal entries of a diagonal matrix close to `K`. -/
theorem Eig.near {K V : Matrix n n ℂ} {κ κ0 : n → ℝ} (h : Eig K V κ) (δ : ℝ) (hδ : ∀ a b, ‖(K - diagonal (fun j => (κ0 j : ℂ))) a b‖ ≤ δ) (j : n) :
    ∃ i, |κ j - κ0 i| ≤ Fintype.card n * δ := by
  obtain ⟨i, _, hi⟩ := Finset.exists_max_image Finset.univ (fun i => ‖V i j‖) ⟨j, Finset.mem_univ j⟩
  refine ⟨i, ?_⟩
  have hpos : 0 < ‖V i j‖ := by
    by_contra hn
    have hz : ∀ m, V m j = 0 := fun m => by
      have := hi m (Finset.mem_univ m)
      have h0 := norm_nonneg (V m j)
      have : ‖V m j‖ = 0 := by linarith
      exact norm_eq_zero.1 this
    have := congrFun (congrFun h.left j) j
    rw [Matrix.mul_apply, one_apply_eq] at this
    simp [hz] at this
  have he : ((κ j : ℂ) - κ0 i) * V i j = ∑ m, (K - diagonal (fun j => (κ0 j : ℂ))) i m * V m j := by
    have h1 := congrFun (congrFun h.eq i) j
    rw [Matrix.mul_apply, Matrix.mul_diagonal] at h1
    simp only [Matrix.sub_apply, sub_mul, Finset.sum_sub_distrib]
    rw [h1]
    simp [diagonal_apply]
    ring
  have hn := congrArg norm he
  rw [norm_mul] at hn
  have h2 : ‖∑ m, (K - diagonal (fun j => (κ0 j : ℂ))) i m * V m j‖ ≤ Fintype.card n * (δ * ‖V i j‖) := by
    refine (norm_sum_le _ _).trans ?_
    have : ∀ m ∈ Finset.univ, ‖(K - diagonal (fun j => (κ0 j : ℂ))) i m * V m j‖ ≤ δ * ‖V i j‖ := by
      intro m hm
      rw [norm_mul]
      have := norm_nonneg ((K - diagonal (fun j => (κ0 j : ℂ))) i m)
      exact mul_le_mul (hδ i m) (hi m hm) (norm_nonneg _) (this.trans (hδ i m))
    refine (Finset.sum_le_sum this).trans ?_
    simp
  rw [← hn] at h2
  have h3 : ‖(κ j : ℂ) - κ0 i‖ = |κ j - κ0 i| := by rw [← Complex.ofReal_sub, Complex.norm_real, Real.norm_eq_abs]
  rw [h3] at h2
  have : |κ j - κ0 i| * ‖V i j‖ ≤ (Fintype.card n * δ) * ‖V i j‖ := by linarith
  exact le_of_mul_le_mul_right this hpos

/-- Continuity of a matrix function at a diagonal matrix; the function need only be continuous at the eigenvalues. -/
theorem fn_tendsto {T : Type*} (F : Filter T) (K V : T → Matrix n n ℂ) (κ : T → n → ℝ) (κ0 : n → ℝ) (hE : ∀ t, Eig (K t) (V t) (κ t))
    (hK : Tendsto K F (𝓝 (diagonal (fun j => (κ0 j : ℂ))))) (g : ℝ → ℂ) (hg : ∀ i, ContinuousAt g (κ0 i)) (i l : n) :
    Tendsto (fun t => fn (V t) (κ t) g i l) F (𝓝 (if i = l then g (κ0 i) else 0)) := by
  classical
  let s : Finset ℂ := Finset.univ.image (fun i => (κ0 i : ℂ))
  let p : Polynomial ℂ := Lagrange.interpolate s id (fun z => g z.re)
  have hp : ∀ i, p.eval (κ0 i : ℂ) = g (κ0 i) := by
    intro i
    have hm : (κ0 i : ℂ) ∈ s := Finset.mem_image.2 ⟨i, Finset.mem_univ i, rfl⟩
    have := Lagrange.eval_interpolate_at_node (fun z => g z.re) (s := s) (v := id) (Set.injOn_id _) hm
    rw [id, Complex.ofReal_re] at this
    exact this
  let h : ℝ → ℂ := fun x => g x - p.eval (x : ℂ)
  have hh : ∀ i, ContinuousAt h (κ0 i) := fun i => (hg i).sub ((p.continuous.comp Complex.continuous_ofReal).continuousAt)
  have hsplit : ∀ t, fn (V t) (κ t) g i l = Polynomial.aeval (K t) p i l + fn (V t) (κ t) h i l := by
    intro t
    rw [← (hE t).fn_poly p, fn_apply, fn_apply, fn_apply, ← Finset.sum_add_distrib]
    refine Finset.sum_congr rfl fun j _ => ?_
    simp only [h]; ring
  simp only [hsplit]
  have h1 : Tendsto (fun t => Polynomial.aeval (K t) p i l) F (𝓝 (if i = l then g (κ0 i) else 0)) := by
    have hc := (p.continuous_aeval (A := Matrix n n ℂ)).tendsto (diagonal (fun j => (κ0 j : ℂ)))
    have h2 := hc.comp hK
    have h3 := (((continuous_apply_apply i l : Continuous fun f : n → n → ℂ => f i l).tendsto _).comp h2)
    have e : Polynomial.aeval (diagonal (fun j => (κ0 j : ℂ))) p i l = if i = l then g (κ0 i) else 0 := by
      have hd : Eig (diagonal (fun j => (κ0 j : ℂ))) (1 : Matrix n n ℂ) κ0 := ⟨by simp, by simp, by simp⟩
      rw [← hd.fn_poly p]
      unfold fn
      simp only [Matrix.one_mul, conjTranspose_one, Matrix.mul_one, diagonal_apply, hp]
    rw [← e]
    exact h3
  have h2 : Tendsto (fun t => fn (V t) (κ t) h i l) F (𝓝 0) := by
    rw [NormedAddGroup.tendsto_nhds_zero]
    intro ε hε
    have hn : (0 : ℝ) < Fintype.card n := by exact_mod_cast Fintype.card_pos_iff.2 ⟨i⟩
    have hδ : ∃ δ > 0, ∀ i x, |x - κ0 i| ≤ Fintype.card n * δ → ‖h x‖ ≤ ε / (2 * Fintype.card n) := by
      have h0 : ∀ i, ∃ δ > 0, ∀ x, |x - κ0 i| ≤ δ → ‖h x‖ ≤ ε / (2 * Fintype.card n) := by
        intro i
        obtain ⟨δ, hδ, hx⟩ := Metric.continuousAt_iff.1 (hh i) (ε / (2 * Fintype.card n)) (by positivity)
        refine ⟨δ / 2, by positivity, fun x hxx => ?_⟩
        have := hx (show dist x (κ0 i) < δ by rw [Real.dist_eq]; linarith)
        have hz : h (κ0 i) = 0 := by simp [h, hp]
        rw [hz, dist_zero_right] at this
        exact this.le
      choose δ hδ hx using h0
      obtain ⟨m, _, hm⟩ := Finset.exists_min_image Finset.univ δ ⟨i, Finset.mem_univ i⟩
      refine ⟨δ m / Fintype.card n, div_pos (hδ m) hn, fun i x hxi => hx i x (hxi.trans ?_)⟩
      rw [mul_div_cancel₀ _ hn.ne']
      exact hm i (Finset.mem_univ i)
    obtain ⟨δ, hδ, hx⟩ := hδ
    have hev : ∀ᶠ t in F, ∀ a b, ‖(K t - diagonal (fun j => (κ0 j : ℂ))) a b‖ ≤ δ := by
      rw [Filter.eventually_all]; intro a
      rw [Filter.eventually_all]; intro b
      have h4 := (((continuous_apply_apply a b : Continuous fun f : n → n → ℂ => f a b).tendsto _).comp hK)
      have h5 := Metric.tendsto_nhds.1 h4 δ hδ
      filter_upwards [h5] with t ht
      rw [Matrix.sub_apply]
      rw [dist_eq_norm] at ht
      exact ht.le
    filter_upwards [hev] with t ht
    have hle : ‖fn (V t) (κ t) h i l‖ ≤ Fintype.card n * (ε / (2 * Fintype.card n)) := by
      refine (hE t).fn_le h _ (fun j => ?_) i l
      obtain ⟨a, ha⟩ := (hE t).near δ ht j
      exact hx a _ ha
    have : Fintype.card n * (ε / (2 * Fintype.card n)) = ε / 2 := by field_simp
    linarith
  simpa using h1.add h2

/-- Divided difference. -/
noncomputable def dd (f : ℝ → ℝ) (a b : ℝ) : ℝ := dslope f a b

/-- Exact difference of a matrix function from its value at a diagonal matrix. -/
theorem Eig.fn_sub {K V : Matrix n n ℂ} {κ : n → ℝ} (h : Eig K V κ) (κ0 : n → ℝ) (f : ℝ → ℝ) (i l : n) :
    fn V κ (fun x => (f x : ℂ)) i l - (if i = l then (f (κ0 i) : ℂ) else 0)
      = ∑ m, (K - diagonal (fun j => (κ0 j : ℂ))) i m * fn V κ (fun x => (dd f (κ0 i) x : ℂ)) m l := by
  have he : ∀ j, ∑ m, (K - diagonal (fun j => (κ0 j : ℂ))) i m * V m j = ((κ j : ℂ) - κ0 i) * V i j := by
    intro j
    have h1 := congrFun (congrFun h.eq i) j
    rw [Matrix.mul_apply, Matrix.mul_diagonal] at h1
    simp only [Matrix.sub_apply, sub_mul, Finset.sum_sub_distrib]
    rw [h1]
    simp [diagonal_apply]
    ring
  have hd : (if i = l then (f (κ0 i) : ℂ) else 0) = ∑ j, V i j * (f (κ0 i) : ℂ) * conj (V l j) := by
    have := congrFun (congrFun h.right i) l
    rw [Matrix.mul_apply, one_apply] at this
    have h2 : ∑ j, V i j * (f (κ0 i) : ℂ) * conj (V l j) = (f (κ0 i) : ℂ) * ∑ j, V i j * Vᴴ j l := by
      rw [Finset.mul_sum]
      refine Finset.sum_congr rfl fun j _ => ?_
      rw [conjTranspose_apply, Complex.star_def]; ring
    rw [h2, this]
    split_ifs <;> simp
  have hs : ∀ m, fn V κ (fun x => (dd f (κ0 i) x : ℂ)) m l = ∑ j, V m j * (dd f (κ0 i) (κ j) : ℂ) * conj (V l j) := fun m => fn_apply _ _ _ _ _
  simp only [hs, Finset.mul_sum]
  rw [Finset.sum_comm, hd, fn_apply, ← Finset.sum_sub_distrib]
  refine Finset.sum_congr rfl fun j _ => ?_
  have h3 : ∑ m, (K - diagonal (fun j => (κ0 j : ℂ))) i m * (V m j * (dd f (κ0 i) (κ j) : ℂ) * conj (V l j))
      = (∑ m, (K - diagonal (fun j => (κ0 j : ℂ))) i m * V m j) * ((dd f (κ0 i) (κ j) : ℂ) * conj (V l j)) := by
    rw [Finset.sum_mul]
    exact Finset.sum_congr rfl fun m _ => by ring
  rw [h3, he]
  have h4 : (κ j - κ0 i) * dd f (κ0 i) (κ j) = f (κ j) - f (κ0 i) := by
    have := sub_smul_dslope f (κ0 i) (κ j)
    simpa [dd] using this
  have h5 : ((κ j : ℂ) - κ0 i) * (dd f (κ0 i) (κ j) : ℂ) = (f (κ j) : ℂ) - f (κ0 i) := by exact_mod_cast congrArg (fun x : ℝ => (x : ℂ)) h4
  linear_combination -V i j * conj (V l j) * h5

theorem dd_continuous {f : ℝ → ℝ} {κ0 : n → ℝ} (hf : ∀ i, DifferentiableAt ℝ f (κ0 i)) (i m : n) :
    ContinuousAt (fun x => (dd f (κ0 i) x : ℂ)) (κ0 m) := by
  refine Complex.continuous_ofReal.continuousAt.comp ?_
  unfold dd
  by_cases h : κ0 m = κ0 i
  · rw [h]; exact continuousAt_dslope_same.2 (hf i)
  · exact (continuousAt_dslope_of_ne h).2 (hf m).continuousAt

theorem mul_deriv_zero (u v : ℝ → ℂ) (u0 v' : ℂ) (t : ℝ) (hu : Tendsto u (𝓝 t) (𝓝 u0)) (hv : HasDerivAt v v' t) (h0 : v t = 0) :
    HasDerivAt (fun t => v t * u t) (v' * u0) t := by
  rw [hasDerivAt_iff_tendsto_slope] at hv ⊢
  have e : slope (fun t => v t * u t) t = fun y => slope v t y * u y := by
    funext y; simp only [slope_def_module, h0]; simp [mul_assoc]
  rw [e]
  exact hv.mul (hu.mono_left nhdsWithin_le_nhds)

theorem tendsto_matrix {T : Type*} (F : Filter T) (K : T → Matrix n n ℂ) (K0 : Matrix n n ℂ) (h : ∀ i l, Tendsto (fun t => K t i l) F (𝓝 (K0 i l))) : Tendsto K F (𝓝 K0) := by
  refine tendsto_pi_nhds.2 fun i => tendsto_pi_nhds.2 fun l => h i l

/-- Derivative of a matrix function at a diagonal matrix. -/
theorem fn_deriv (K V : ℝ → Matrix n n ℂ) (κ : ℝ → n → ℝ) (κ0 : n → ℝ) (K' : Matrix n n ℂ) (t0 : ℝ) (hE : ∀ t, Eig (K t) (V t) (κ t))
    (hK0 : K t0 = diagonal (fun j => (κ0 j : ℂ))) (hK : ∀ i l, HasDerivAt (fun t => K t i l) (K' i l) t0) (f : ℝ → ℝ)
    (hf : ∀ i, DifferentiableAt ℝ f (κ0 i)) (i l : n) :
    HasDerivAt (fun t => fn (V t) (κ t) (fun x => (f x : ℂ)) i l) (K' i l * (dd f (κ0 i) (κ0 l) : ℂ)) t0 := by
  have hKt : Tendsto K (𝓝 t0) (𝓝 (diagonal (fun j => (κ0 j : ℂ)))) := by
    rw [← hK0]
    exact tendsto_matrix _ _ _ fun i l => (hK i l).continuousAt.tendsto
  have e : (fun t => fn (V t) (κ t) (fun x => (f x : ℂ)) i l) = fun t => (if i = l then (f (κ0 i) : ℂ) else 0)
      + ∑ m, (K t - diagonal (fun j => (κ0 j : ℂ))) i m * fn (V t) (κ t) (fun x => (dd f (κ0 i) x : ℂ)) m l := by
    funext t; rw [← (hE t).fn_sub κ0 f i l]; ring
  rw [e]
  have hterm : ∀ m ∈ Finset.univ, HasDerivAt (fun t => (K t - diagonal (fun j => (κ0 j : ℂ))) i m * fn (V t) (κ t) (fun x => (dd f (κ0 i) x : ℂ)) m l)
      (K' i m * (if m = l then (dd f (κ0 i) (κ0 m) : ℂ) else 0)) t0 := by
    intro m _
    refine mul_deriv_zero _ _ _ _ _ (fn_tendsto _ K V κ κ0 hE hKt _ (fun a => dd_continuous hf i a) m l) ?_ ?_
    · simp only [Matrix.sub_apply]
      exact (hK i m).sub_const _
    · rw [hK0, sub_self, Matrix.zero_apply]
  refine ((HasDerivAt.fun_sum hterm).const_add _).congr_deriv ?_
  simp

end Jdftx.MatFn
