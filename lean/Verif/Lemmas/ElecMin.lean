import Verif.Spec.ElecMin
import Verif.Props.Smear
import Mathlib.LinearAlgebra.Matrix.Block

/-! # Lemmas on the electronic minimiser -/
set_option linter.unusedSectionVars false
namespace Jdftx.ElecMin
open Matrix Jdftx.MatFn Jdftx.Smear Filter Topology ComplexConjugate
open scoped ComplexOrder
noncomputable section

variable {Q B : Type} [Fintype Q] [Fintype B] {n : ℕ}

theorem Lower.unit {L : Mat n} (h : Lower L) : IsUnit L.det := by
  have ht : L.BlockTriangular OrderDual.toDual := fun i j hij => h.tri i j (by simpa using hij)
  rw [Matrix.det_of_isLowerTriangular L ht, isUnit_iff_ne_zero, Finset.prod_ne_zero_iff]
  intro j _ h0
  have := h.pos j
  rw [h0] at this; simp at this

theorem ortho_some {l : Lapack n} (hl : l.OK) {A S : Mat n} (h : orthoMatrix l A = some S) :
    ∃ L, Lower L ∧ L * Lᴴ = A ∧ S = (L⁻¹)ᴴ ∧ Sᴴ * (A * S) = 1 ∧ IsUnit S.det := by
  unfold orthoMatrix at h
  obtain ⟨L, hL, rfl⟩ := Option.map_eq_some_iff.1 h
  obtain ⟨h1, h2⟩ := hl.chol A L hL
  have hu := Lower.unit h1
  have hu' : IsUnit (Lᴴ).det := by rw [det_conjTranspose]; exact hu.star
  refine ⟨L, h1, h2, rfl, ?_, ?_⟩
  · rw [conjTranspose_conjTranspose, ← h2, conjTranspose_nonsing_inv, Matrix.mul_assoc, Matrix.mul_nonsing_inv _ hu', Matrix.mul_one,
      Matrix.nonsing_inv_mul _ hu]
  · rw [conjTranspose_nonsing_inv, det_nonsing_inv]
    exact hu'.ringInverse

theorem mul_det_unit {A B : Mat n} (h : A * B = 1) : IsUnit A.det ∧ IsUnit B.det := by
  have := congrArg Matrix.det h
  rw [det_mul, det_one] at this
  exact ⟨IsUnit.of_mul_eq_one _ this, IsUnit.of_mul_eq_one _ ((mul_comm _ _).trans this)⟩

/-- Overlap of the wavefunctions along a step in a direction orthogonal to them. -/
theorem overlap_step {O : Matrix B B ℂ} (hO : O.PosSemidef) {C Y : Matrix B (Fin n) ℂ} (hC : Cᴴ * (O * C) = 1) (hY : Cᴴ * (O * Y) = 0) (α : ℝ) :
    (C + (α : ℂ) • Y)ᴴ * (O * (C + (α : ℂ) • Y)) = 1 + ((α : ℂ) • Y)ᴴ * O * ((α : ℂ) • Y) := by
  have hY' : Yᴴ * (O * C) = 0 := by
    have := congrArg conjTranspose hY
    rw [conjTranspose_mul, conjTranspose_mul, conjTranspose_conjTranspose, hO.1, conjTranspose_zero, Matrix.mul_assoc] at this
    exact this
  rw [conjTranspose_add, Matrix.mul_add, Matrix.add_mul, Matrix.mul_add, Matrix.mul_add, hC, conjTranspose_smul]
  simp only [Matrix.mul_smul, Matrix.smul_mul, hY, hY', smul_zero, add_zero, zero_add, Matrix.mul_assoc]

theorem overlap_posDef {O : Matrix B B ℂ} (hO : O.PosSemidef) {C Y : Matrix B (Fin n) ℂ} (hC : Cᴴ * (O * C) = 1) (hY : Cᴴ * (O * Y) = 0) (α : ℝ) :
    ((C + (α : ℂ) • Y)ᴴ * (O * (C + (α : ℂ) • Y))).PosDef := by
  rw [overlap_step hO hC hY]
  exact Matrix.PosDef.one.add_posSemidef (hO.conjTranspose_mul_mul_same _)

/-- The orthonormalising matrices along a step are stationary at its start. -/
theorem ortho_path {l : Lapack n} (hl : l.OK) {O : Matrix B B ℂ} (hO : O.PosSemidef) {C Y : Matrix B (Fin n) ℂ} (hC : Cᴴ * (O * C) = 1)
    (hY : Cᴴ * (O * Y) = 0) :
    ∃ S : ℝ → Mat n, (∀ α : ℝ, orthoMatrix l ((C + (α : ℂ) • Y)ᴴ * (O * (C + (α : ℂ) • Y))) = some (S α)) ∧ S 0 = 1 ∧ MDeriv S 0 0 := by
  have hex : ∀ α : ℝ, ∃ S, orthoMatrix l ((C + (α : ℂ) • Y)ᴴ * (O * (C + (α : ℂ) • Y))) = some S := by
    intro α
    have := hl.posDef _ (overlap_posDef hO hC hY α)
    obtain ⟨L, hL⟩ := Option.isSome_iff_exists.1 this
    exact ⟨(L⁻¹)ᴴ, by unfold orthoMatrix; rw [hL]; rfl⟩
  choose S hS using hex
  have hL := fun α => ortho_some hl (hS α)
  choose L h1 h2 h3 _ _ using hL
  have hA0 : ((C + ((0 : ℝ) : ℂ) • Y)ᴴ * (O * (C + ((0 : ℝ) : ℂ) • Y))) = 1 := by simp [hC]
  have hline := MDeriv.line C Y 0
  have hd : MDeriv (fun α : ℝ => (C + (α : ℂ) • Y)ᴴ * (O * (C + (α : ℂ) • Y))) 0 0 := by
    have h := hline.dagger.mul ((MDeriv.const O 0).mul hline)
    have e : Yᴴ * (O * (C + ((0 : ℝ) : ℂ) • Y)) + (C + ((0 : ℝ) : ℂ) • Y)ᴴ * ((0 : Matrix B B ℂ) * (C + ((0 : ℝ) : ℂ) • Y) + O * Y) = (0 : Mat n) := by
      have hY' : Yᴴ * (O * C) = 0 := by
        have := congrArg conjTranspose hY
        rw [conjTranspose_mul, conjTranspose_mul, conjTranspose_conjTranspose, hO.1, conjTranspose_zero, Matrix.mul_assoc] at this
        exact this
      simp [hY, hY']
    rw [e] at h
    exact h
  obtain ⟨hL0, hLd⟩ := chol_deriv _ L h1 h2 hA0 hd
  have hi := inv_deriv L hL0 hLd (fun t => Matrix.mul_nonsing_inv _ (Lower.unit (h1 t)))
  refine ⟨S, hS, ?_, ?_⟩
  · rw [h3 0, hL0]; simp
  · have e : S = fun t => ((L t)⁻¹)ᴴ := funext h3
    rw [e]
    have := hi.dagger
    rwa [conjTranspose_zero] at this

/-- Derivative of the density matrix along a step. -/
theorem density_deriv {C Y : Matrix B (Fin n) ℂ} {S M : ℝ → Mat n} {M' F : Mat n} (hS0 : S 0 = 1) (hS : MDeriv S 0 0)
    (hM0 : M 0 = F) (hM : MDeriv M M' 0) :
    MDeriv (fun α : ℝ => (C + (α : ℂ) • Y) * S α * M α * (S α)ᴴ * (C + (α : ℂ) • Y)ᴴ) (Y * F * Cᴴ + C * M' * Cᴴ + C * F * Yᴴ) 0 := by
  have hline := MDeriv.line C Y 0
  have h := (((hline.mul hS).mul hM).mul hS.dagger).mul hline.dagger
  have e : (((Y * S 0 + (C + ((0 : ℝ) : ℂ) • Y) * (0 : Mat n)) * M 0 + (C + ((0 : ℝ) : ℂ) • Y) * S 0 * M') * (S 0)ᴴ + (C + ((0 : ℝ) : ℂ) • Y) * S 0 * M 0 * (0 : Mat n)ᴴ)
        * (C + ((0 : ℝ) : ℂ) • Y)ᴴ + (C + ((0 : ℝ) : ℂ) • Y) * S 0 * M 0 * (S 0)ᴴ * Yᴴ = Y * F * Cᴴ + C * M' * Cᴴ + C * F * Yᴴ := by
    simp [hS0, hM0, Matrix.add_mul]
  rw [e] at h
  exact h

theorem re_trace_dagger (A : Mat n) : (Aᴴ).trace.re = A.trace.re := by
  rw [trace_conjTranspose]; simp

/-- The change of the energy along a step, in terms of the gradients. -/
theorem energy_trace {H O : Matrix B B ℂ} (hH : H.IsHermitian) (hO : O.IsHermitian) {C Y : Matrix B (Fin n) ℂ} (hY : Cᴴ * (O * Y) = 0) (F : Fin n → ℝ) (M' : Mat n) :
    (H * (Y * diagonal (fun j => (F j : ℂ)) * Cᴴ + C * M' * Cᴴ + C * diagonal (fun j => (F j : ℂ)) * Yᴴ)).trace.re
      = 2 * ((((H * C - O * C * (Cᴴ * (H * C))) * diagonal (fun j => (F j : ℂ)))ᴴ * Y).trace.re) + ((Cᴴ * (H * C)) * M').trace.re := by
  set D : Mat n := diagonal (fun j => (F j : ℂ)) with hD
  have hDd : Dᴴ = D := by
    rw [hD, diagonal_conjTranspose]; congr 1; funext j; simp
  have h1 : (H * (Y * D * Cᴴ)).trace = (D * (Cᴴ * (H * Y))).trace := by
    rw [← Matrix.mul_assoc, Matrix.trace_mul_comm, ← Matrix.mul_assoc H, ← Matrix.mul_assoc Cᴴ, Matrix.trace_mul_comm]
  have h2 : (H * (C * D * Yᴴ)).trace.re = (D * (Cᴴ * (H * Y))).trace.re := by
    rw [← re_trace_dagger (D * (Cᴴ * (H * Y)))]
    congr 1
    simp only [conjTranspose_mul, conjTranspose_conjTranspose, hDd, hH.eq]
    rw [← Matrix.mul_assoc, Matrix.trace_mul_comm]
    simp only [Matrix.mul_assoc]
  have h3 : (H * (C * M' * Cᴴ)).trace = ((Cᴴ * (H * C)) * M').trace := by
    rw [← Matrix.mul_assoc, Matrix.trace_mul_comm]
    simp only [Matrix.mul_assoc]
  have h4 : ((H * C - O * C * (Cᴴ * (H * C))) * D)ᴴ * Y = D * (Cᴴ * (H * Y)) := by
    simp only [conjTranspose_mul, conjTranspose_sub, conjTranspose_conjTranspose, hDd, hH.eq, hO.eq]
    rw [Matrix.mul_assoc, Matrix.sub_mul]
    have : Cᴴ * H * C * (Cᴴ * O) * Y = 0 := by
      rw [Matrix.mul_assoc _ _ Y, Matrix.mul_assoc Cᴴ O Y, hY, Matrix.mul_zero]
    rw [this, sub_zero, Matrix.mul_assoc]
  rw [Matrix.mul_add, Matrix.mul_add, trace_add, trace_add, Complex.add_re, Complex.add_re, h1, h2, h3, h4]
  ring

/-- Inner products as traces. -/
theorem dot_trace {m k : Type*} [Fintype m] [Fintype k] (x y : Matrix m k ℂ) : ∑ b, ∑ j, conj (x b j) * y b j = (xᴴ * y).trace := by
  unfold Matrix.trace
  simp only [diag_apply, Matrix.mul_apply, conjTranspose_apply, Complex.star_def]
  exact Finset.sum_comm

/-! ## Eigenvalue sums -/

theorem eig_sum {K V : Mat n} {κ : Fin n → ℝ} (h : Eig K V κ) (g : ℝ → ℂ) : ∑ j, g (κ j) = ∑ i, fn V κ g i i := by
  have h1 : (fn V κ g).trace = (diagonal (fun j => g (κ j))).trace := by
    unfold fn
    rw [Matrix.mul_assoc, Matrix.trace_mul_comm, Matrix.mul_assoc, h.left, Matrix.mul_one]
  rw [trace_diagonal] at h1
  exact h1.symm

theorem eig_shift {K V : Mat n} {κ : Fin n → ℝ} (h : Eig K V κ) (x : ℝ) : Eig (K - (x : ℂ) • 1) V (fun j => κ j - x) where
  left := h.left
  right := h.right
  eq := by
    rw [Matrix.sub_mul, h.eq, Matrix.smul_mul, Matrix.one_mul]
    ext a b
    simp only [Matrix.sub_apply, Matrix.mul_diagonal, Matrix.smul_apply, smul_eq_mul, Complex.ofReal_sub]
    ring

/-- Limit of an eigenvalue sum. -/
theorem sum_tendsto {T : Type*} (F : Filter T) (K V : T → Mat n) (κ : T → Fin n → ℝ) (κ0 : Fin n → ℝ) (hE : ∀ t, Eig (K t) (V t) (κ t))
    (hK : Tendsto K F (𝓝 (diagonal (fun j => (κ0 j : ℂ))))) (g : ℝ → ℝ) (hg : ∀ i, ContinuousAt g (κ0 i)) :
    Tendsto (fun t => ∑ j, g (κ t j)) F (𝓝 (∑ j, g (κ0 j))) := by
  have h1 : Tendsto (fun t => ∑ i, fn (V t) (κ t) (fun x => (g x : ℂ)) i i) F (𝓝 (∑ i, (g (κ0 i) : ℂ))) := by
    refine tendsto_finsetSum _ fun i _ => ?_
    have := fn_tendsto F K V κ κ0 hE hK (fun x => (g x : ℂ)) (fun i => Complex.continuous_ofReal.continuousAt.comp (hg i)) i i
    simpa using this
  have h2 : (fun t => ∑ i, fn (V t) (κ t) (fun x => (g x : ℂ)) i i) = fun t => ((∑ j, g (κ t j) : ℝ) : ℂ) := by
    funext t; rw [← eig_sum (hE t)]; push_cast; rfl
  rw [h2] at h1
  have := (Complex.continuous_re.tendsto _).comp h1
  simpa [Function.comp_def] using this

/-- Derivative of an eigenvalue sum. -/
theorem sum_deriv (K V : ℝ → Mat n) (κ : ℝ → Fin n → ℝ) (κ0 : Fin n → ℝ) (K' : Mat n) (hE : ∀ t, Eig (K t) (V t) (κ t))
    (hK0 : K 0 = diagonal (fun j => (κ0 j : ℂ))) (hK : MDeriv K K' 0) (f : ℝ → ℝ) (f' : ℝ → ℝ) (hf : ∀ i, HasDerivAt f (f' (κ0 i)) (κ0 i)) :
    HasDerivAt (fun t => ∑ j, f (κ t j)) (∑ j, (K' j j).re * f' (κ0 j)) 0 := by
  have h1 : HasDerivAt (fun t => ∑ i, fn (V t) (κ t) (fun x => (f x : ℂ)) i i) (∑ i, K' i i * (dd f (κ0 i) (κ0 i) : ℂ)) 0 :=
    HasDerivAt.fun_sum fun i _ => fn_deriv K V κ κ0 K' 0 hE hK0 hK f (fun i => (hf i).differentiableAt) i i
  have h2 : (fun t => ∑ i, fn (V t) (κ t) (fun x => (f x : ℂ)) i i) = fun t => ((∑ j, f (κ t j) : ℝ) : ℂ) := by
    funext t; rw [← eig_sum (hE t)]; push_cast; rfl
  rw [h2] at h1
  have h3 := re_deriv h1
  simp only [Complex.ofReal_re] at h3
  refine h3.congr_deriv ?_
  rw [Complex.re_sum]
  refine Finset.sum_congr rfl fun j _ => ?_
  rw [Complex.re_mul_ofReal]
  congr 1
  unfold dd
  rw [dslope_same, (hf j).deriv]

/-- At the start of a step the eigenvalue sums are those of the diagonal matrix. -/
theorem sum_start {V : Mat n} {κ κ0 : Fin n → ℝ} (h : Eig (diagonal (fun j => (κ0 j : ℂ))) V κ) (g : ℝ → ℝ) : ∑ j, g (κ j) = ∑ j, g (κ0 j) := by
  have h1 := eig_sum h (fun x => (g x : ℂ))
  have h2 : ∀ i, fn V κ (fun x => (g x : ℂ)) i i = (g (κ0 i) : ℂ) := by
    intro i
    have := h.fn_sub κ0 g i i
    rw [sub_self] at this
    simp only [Matrix.zero_apply, zero_mul, Finset.sum_const_zero, if_true] at this
    exact sub_eq_zero.1 this
  simp only [h2] at h1
  exact_mod_cast h1

theorem fn_start {V : Mat n} {κ κ0 : Fin n → ℝ} (h : Eig (diagonal (fun j => (κ0 j : ℂ))) V κ) (g : ℝ → ℝ) :
    fn V κ (fun x => (g x : ℂ)) = diagonal (fun j => (g (κ0 j) : ℂ)) := by
  ext i j
  have := h.fn_sub κ0 g i j
  rw [sub_self] at this
  simp only [Matrix.zero_apply, zero_mul, Finset.sum_const_zero] at this
  rw [sub_eq_zero.1 this, diagonal_apply]

/-! ## The chemical potential along a step -/

/-- A set of states with a common chemical potential `δ` (relative to its value at the start), determined by a fixed number of electrons. -/
structure Group (s : Finset Q) (w : Q → ℝ) (κ0 : Q → Fin n → ℝ) (D : Q → Mat n) (V : Q → ℝ → Mat n) (ε : Q → ℝ → Fin n → ℝ) (f : ℝ → ℝ) (δ : ℝ → ℝ) : Prop where
  eig : ∀ q ∈ s, ∀ t : ℝ, Eig (diagonal (fun j => (κ0 q j : ℂ)) + (t : ℂ) • D q) (V q t) (ε q t)
  zero : δ 0 = 0
  fixed : ∀ t, ∑ q ∈ s, w q * ∑ j, f (ε q t j - δ t) = ∑ q ∈ s, w q * ∑ j, f (κ0 q j)

theorem line_tendsto (κ0 : Fin n → ℝ) (D : Mat n) : Tendsto (fun t : ℝ => diagonal (fun j => (κ0 j : ℂ)) + (t : ℂ) • D) (𝓝 0) (𝓝 (diagonal (fun j => (κ0 j : ℂ)))) := by
  refine tendsto_matrix _ _ _ fun i l => ?_
  have := (MDeriv.line (diagonal (fun j => (κ0 j : ℂ))) D 0 i l).continuousAt.tendsto
  simpa using this

theorem line_shift_tendsto (κ0 : Fin n → ℝ) (D : Mat n) (δ : ℝ → ℝ) (x : ℝ) (hδ : Tendsto δ (𝓝 0) (𝓝 x)) :
    Tendsto (fun t : ℝ => diagonal (fun j => (κ0 j : ℂ)) + (t : ℂ) • D - (δ t : ℂ) • (1 : Mat n)) (𝓝 0) (𝓝 (diagonal (fun j => ((κ0 j - x : ℝ) : ℂ)))) := by
  refine tendsto_matrix _ _ _ fun i l => ?_
  have h1 := (MDeriv.line (diagonal (fun j => (κ0 j : ℂ))) D 0 i l).continuousAt.tendsto
  have h2 := ((Complex.continuous_ofReal.tendsto x).comp hδ).mul_const ((1 : Mat n) i l)
  have h3 := h1.sub h2
  simp only [Matrix.add_apply, Matrix.smul_apply, smul_eq_mul, Complex.ofReal_zero, zero_mul, add_zero, Function.comp_def] at h3
  simp only [Matrix.sub_apply, Matrix.add_apply, Matrix.smul_apply, smul_eq_mul]
  refine h3.trans (le_of_eq ?_)
  congr 1
  by_cases h : i = l
  · subst h; simp
  · simp [h]

theorem Group.tendsto {s : Finset Q} {w : Q → ℝ} {κ0 : Q → Fin n → ℝ} {D : Q → Mat n} {V : Q → ℝ → Mat n} {ε : Q → ℝ → Fin n → ℝ} {f : ℝ → ℝ} {δ : ℝ → ℝ}
    (h : Group s w κ0 D V ε f δ) (hf : StrictAnti f) (hc : Continuous f) (hw : ∀ q ∈ s, 0 < w q) (hs : s.Nonempty) (hn : 0 < n) :
    Tendsto δ (𝓝 0) (𝓝 0) := by
  have hne : Nonempty (Fin n) := ⟨⟨0, hn⟩⟩
  have mono : ∀ (e : Q → Fin n → ℝ) (x y : ℝ), x < y → ∑ q ∈ s, w q * ∑ j, f (e q j - x) < ∑ q ∈ s, w q * ∑ j, f (e q j - y) := by
    intro e x y hxy
    refine Finset.sum_lt_sum_of_nonempty hs fun q hq => ?_
    refine mul_lt_mul_of_pos_left ?_ (hw q hq)
    exact Finset.sum_lt_sum_of_nonempty Finset.univ_nonempty fun j _ => hf (by linarith)
  have lim : ∀ x : ℝ, Tendsto (fun t => ∑ q ∈ s, w q * ∑ j, f (ε q t j - x)) (𝓝 0) (𝓝 (∑ q ∈ s, w q * ∑ j, f (κ0 q j - x))) := by
    intro x
    refine tendsto_finsetSum _ fun q hq => (Tendsto.const_mul _ ?_)
    exact sum_tendsto (𝓝 0) _ (V q) (ε q) (κ0 q) (h.eig q hq) (line_tendsto _ _) (fun y => f (y - x))
      (fun i => (hc.comp (continuous_id.sub continuous_const)).continuousAt)
  rw [Metric.tendsto_nhds]
  intro r hr
  have h0 : ∑ q ∈ s, w q * ∑ j, f (κ0 q j) = ∑ q ∈ s, w q * ∑ j, f (κ0 q j - 0) := by simp
  have hup := (lim (r / 2)).eventually (lt_mem_nhds (h0 ▸ mono κ0 0 (r / 2) (by linarith)))
  have hdn := (lim (-(r / 2))).eventually (gt_mem_nhds (h0 ▸ mono κ0 (-(r / 2)) 0 (by linarith)))
  filter_upwards [hup, hdn] with t h1 h2
  rw [← h.fixed t] at h1 h2
  have a1 : δ t ≤ r / 2 := by
    by_contra hh
    have := mono (fun q => ε q t) (r / 2) (δ t) (by linarith)
    linarith
  have a2 : -(r / 2) ≤ δ t := by
    by_contra hh
    have := mono (fun q => ε q t) (δ t) (-(r / 2)) (by linarith)
    linarith
  rw [Real.dist_eq, sub_zero, abs_lt]
  constructor <;> linarith

theorem Group.deriv {s : Finset Q} {w : Q → ℝ} {κ0 : Q → Fin n → ℝ} {D : Q → Mat n} {V : Q → ℝ → Mat n} {ε : Q → ℝ → Fin n → ℝ} {f : ℝ → ℝ} {δ : ℝ → ℝ}
    (h : Group s w κ0 D V ε f δ) (hδ : Tendsto δ (𝓝 0) (𝓝 0)) (f' : ℝ → ℝ) (hf : ∀ q ∈ s, ∀ j, HasDerivAt f (f' (κ0 q j)) (κ0 q j))
    (hB : ∑ q ∈ s, w q * ∑ j, f' (κ0 q j) ≠ 0) :
    HasDerivAt δ ((∑ q ∈ s, w q * ∑ j, f' (κ0 q j) * (D q j j).re) / ∑ q ∈ s, w q * ∑ j, f' (κ0 q j)) 0 := by
  -- difference of the electron numbers
  let G : Q → ℝ → Fin n → Fin n → ℂ := fun q t i m => fn (V q t) (fun j => ε q t j - δ t) (fun x => (dd f (κ0 q i) x : ℂ)) m i
  have hE : ∀ q ∈ s, ∀ t : ℝ, Eig (diagonal (fun j => (κ0 q j : ℂ)) + (t : ℂ) • D q - (δ t : ℂ) • (1 : Mat n)) (V q t) (fun j => ε q t j - δ t) :=
    fun q hq t => eig_shift (h.eig q hq t) (δ t)
  have hG : ∀ q ∈ s, ∀ i m, Tendsto (fun t => G q t i m) (𝓝 0) (𝓝 (if m = i then (f' (κ0 q i) : ℂ) else 0)) := by
    intro q hq i m
    have h0 := line_shift_tendsto (κ0 q) (D q) δ 0 hδ
    simp only [sub_zero] at h0
    have := fn_tendsto (𝓝 0) _ (V q) (fun t j => ε q t j - δ t) (κ0 q) (hE q hq) h0 (fun x => (dd f (κ0 q i) x : ℂ))
      (fun a => dd_continuous (fun i => (hf q hq i).differentiableAt) i a) m i
    refine this.trans (le_of_eq ?_)
    congr 1
    by_cases hm : m = i
    · subst hm
      simp only [if_true]
      unfold dd
      rw [dslope_same, (hf q hq m).deriv]
    · simp [hm]
  let a : ℝ → ℂ := fun t => ∑ q ∈ s, (w q : ℂ) * ∑ i, ∑ m, D q i m * G q t i m
  let b : ℝ → ℂ := fun t => ∑ q ∈ s, (w q : ℂ) * ∑ i, G q t i i
  have hab : ∀ t : ℝ, (t : ℂ) * a t = (δ t : ℂ) * b t := by
    intro t
    have hq : ∀ q ∈ s, (w q : ℂ) * ∑ j, (f (ε q t j - δ t) : ℂ) - (w q : ℂ) * ∑ j, (f (κ0 q j) : ℂ)
        = (t : ℂ) * ((w q : ℂ) * ∑ i, ∑ m, D q i m * G q t i m) - (δ t : ℂ) * ((w q : ℂ) * ∑ i, G q t i i) := by
      intro q hq
      have h1 := eig_sum (hE q hq t) (fun x => (f x : ℂ))
      rw [h1, ← mul_sub, ← Finset.sum_sub_distrib]
      have h2 : ∀ i, fn (V q t) (fun j => ε q t j - δ t) (fun x => (f x : ℂ)) i i - (f (κ0 q i) : ℂ) = (t : ℂ) * ∑ m, D q i m * G q t i m - (δ t : ℂ) * G q t i i := by
        intro i
        have := (hE q hq t).fn_sub (κ0 q) f i i
        rw [if_pos rfl] at this
        rw [this]
        have e : ∀ m, (diagonal (fun j => (κ0 q j : ℂ)) + (t : ℂ) • D q - (δ t : ℂ) • (1 : Mat n) - diagonal (fun j => (κ0 q j : ℂ))) i m
            = (t : ℂ) * D q i m - (δ t : ℂ) * (1 : Mat n) i m := by
          intro m; simp only [Matrix.sub_apply, Matrix.add_apply, Matrix.smul_apply, smul_eq_mul]; ring
        simp only [e, sub_mul, Finset.sum_sub_distrib, Finset.mul_sum]
        congr 1
        · exact Finset.sum_congr rfl fun m _ => by simp only [G]; ring
        · simp [one_apply, G]
      simp only [h2, Finset.sum_sub_distrib, ← Finset.mul_sum]
      ring
    have h3 := Finset.sum_congr rfl hq
    have h4 : ∑ q ∈ s, ((w q : ℂ) * ∑ j, (f (ε q t j - δ t) : ℂ) - (w q : ℂ) * ∑ j, (f (κ0 q j) : ℂ)) = 0 := by
      rw [Finset.sum_sub_distrib, sub_eq_zero]
      exact_mod_cast congrArg (fun x : ℝ => (x : ℂ)) (h.fixed t)
    rw [h4, Finset.sum_sub_distrib, ← Finset.mul_sum, ← Finset.mul_sum] at h3
    exact sub_eq_zero.1 h3.symm
  have ha : Tendsto a (𝓝 0) (𝓝 (∑ q ∈ s, (w q : ℂ) * ∑ i, D q i i * (f' (κ0 q i) : ℂ))) := by
    refine tendsto_finsetSum _ fun q hq => Tendsto.const_mul _ (tendsto_finsetSum _ fun i _ => ?_)
    have := tendsto_finsetSum Finset.univ fun m (_ : m ∈ Finset.univ) => (hG q hq i m).const_mul (D q i m)
    simpa using this
  have hb : Tendsto b (𝓝 0) (𝓝 (((∑ q ∈ s, w q * ∑ j, f' (κ0 q j) : ℝ)) : ℂ)) := by
    have : Tendsto b (𝓝 0) (𝓝 (∑ q ∈ s, (w q : ℂ) * ∑ i, (f' (κ0 q i) : ℂ))) := by
      refine tendsto_finsetSum _ fun q hq => Tendsto.const_mul _ (tendsto_finsetSum _ fun i _ => ?_)
      simpa using hG q hq i i
    push_cast
    exact this
  have hB' : ((∑ q ∈ s, w q * ∑ j, f' (κ0 q j) : ℝ) : ℂ) ≠ 0 := by exact_mod_cast hB
  have hdiv := (ha.div hb hB')
  have hre := (Complex.continuous_re.tendsto _).comp hdiv
  rw [hasDerivAt_iff_tendsto_slope]
  have hval : ((∑ q ∈ s, (w q : ℂ) * ∑ i, D q i i * (f' (κ0 q i) : ℂ)) / ((∑ q ∈ s, w q * ∑ j, f' (κ0 q j) : ℝ) : ℂ)).re
      = (∑ q ∈ s, w q * ∑ j, f' (κ0 q j) * (D q j j).re) / ∑ q ∈ s, w q * ∑ j, f' (κ0 q j) := by
    rw [Complex.div_ofReal_re, Complex.re_sum]
    congr 1
    refine Finset.sum_congr rfl fun q _ => ?_
    rw [Complex.re_ofReal_mul, Complex.re_sum]
    congr 1
    exact Finset.sum_congr rfl fun j _ => by rw [Complex.re_mul_ofReal]; ring
  rw [hval] at hre
  refine (hre.mono_left nhdsWithin_le_nhds).congr' ?_
  have hbne : ∀ᶠ t in 𝓝[≠] (0 : ℝ), b t ≠ 0 := (hb.eventually_ne hB').filter_mono nhdsWithin_le_nhds
  filter_upwards [hbne, self_mem_nhdsWithin] with t hbt ht
  have ht' : t ≠ 0 := ht
  have htc : (t : ℂ) ≠ 0 := by exact_mod_cast ht'
  have e : a t / b t = ((δ t / t : ℝ) : ℂ) := by
    push_cast
    rw [div_eq_div_iff hbt htc]
    linear_combination hab t
  simp only [Function.comp_apply, Pi.div_apply]
  rw [e, Complex.ofReal_re, slope_def_field, h.zero, sub_zero, sub_zero]

/-! ## A step with variable fillings -/

theorem stepQ_hsub {i : Info Q n} (hh : i.hsub = true) {l : Lapack n} {O : Matrix B B ℂ} {dC : Matrix B (Fin n) ℂ} {dH : Mat n} {α : ℝ} {s : QState B n} {S : Mat n}
    (hS : orthoMatrix l ((s.C + (α : ℂ) • (dC * s.rotPrevC))ᴴ * (O * (s.C + (α : ℂ) • (dC * s.rotPrevC)))) = some S) :
    stepQ i l O dC dH α s = some (
      let e := l.eig (diagonal (fun j => (s.eps j : ℂ)) + (α : ℂ) • ((s.rotPrev)ᴴ * dH * s.rotPrev))
      { C := (s.C + (α : ℂ) • (dC * s.rotPrevC)) * (S * e.1), eps := e.2, rotPrev := s.rotPrev * e.1,
        rotPrevC := s.rotPrevC * (S * e.1), rotPrevCinv := (S * e.1)⁻¹ * s.rotPrevCinv }) := by
  unfold stepQ
  simp only [hS, hh]
  simp

theorem step_some {i : Info Q n} {l : Lapack n} {p : Phys Q B} {s s' : Q → QState B n} {dir : Grad Q B n} {α : ℝ} :
    step i l p s dir α = some s' ↔ ∀ q, stepQ i l (p.O q) (dir.C q) (dir.Haux q) α (s q) = some (s' q) := by
  unfold step
  constructor
  · intro h q
    split at h
    · rename_i hs
      have := congrFun (Option.some.inj h) q
      rw [← this]
      simp
    · simp at h
  · intro h
    have hs : ∀ q, (stepQ i l (p.O q) (dir.C q) (dir.Haux q) α (s q)).isSome := fun q => by rw [h q]; rfl
    rw [dif_pos hs]
    congr 1
    funext q
    simp [h q]

theorem hermitian_rot {D R : Mat n} (h : D.IsHermitian) : (Rᴴ * D * R).IsHermitian := by
  unfold Matrix.IsHermitian
  rw [conjTranspose_mul, conjTranspose_mul, conjTranspose_conjTranspose, h.eq, Matrix.mul_assoc]

theorem hermitian_line {e : Fin n → ℝ} {D : Mat n} (h : D.IsHermitian) (α : ℝ) : (diagonal (fun j => (e j : ℂ)) + (α : ℂ) • D).IsHermitian := by
  unfold Matrix.IsHermitian
  rw [conjTranspose_add, conjTranspose_smul, h.eq, diagonal_conjTranspose]
  congr 2
  · funext j; simp
  · simp

/-- The auxiliary direction in the frame of the current wavefunctions. -/
def auxDir (s : Q → QState B n) (dir : Grad Q B n) (q : Q) : Mat n := ((s q).rotPrev)ᴴ * dir.Haux q * (s q).rotPrev

/-- States along a step, in terms of the orthonormalising matrices and of the eigenvectors of the auxiliary Hamiltonian. -/
theorem hsub_path {i : Info Q n} (hh : i.hsub = true) {l : Lapack n} (hl : l.OK) {p : Phys Q B} {w : Q → ℝ} (hp : p.OK w) {s : Q → QState B n} (ho : Orthonormal p s)
    {dir : Grad Q B n} (ht : Tangent p s dir) :
    ∃ (S V : Q → ℝ → Mat n) (ε : Q → ℝ → Fin n → ℝ) (s' : ℝ → Q → QState B n), (∀ α, step i l p s dir α = some (s' α))
      ∧ (∀ q, S q 0 = 1) ∧ (∀ q, MDeriv (S q) 0 0)
      ∧ (∀ q (α : ℝ), Eig (diagonal (fun j => ((s q).eps j : ℂ)) + (α : ℂ) • auxDir s dir q) (V q α) (ε q α))
      ∧ ∀ α q, (s' α q).C = ((s q).C + (α : ℂ) • (dir.C q * (s q).rotPrevC)) * (S q α * V q α) ∧ (s' α q).eps = ε q α := by
  have hY : ∀ q, ((s q).C)ᴴ * (p.O q * (dir.C q * (s q).rotPrevC)) = 0 := fun q => by
    rw [← Matrix.mul_assoc (p.O q), ← Matrix.mul_assoc, (ht q).1, Matrix.zero_mul]
  have hS := fun q => ortho_path hl (hp.overlap q) (ho q) (hY q)
  choose S hS hS0 hSd using hS
  refine ⟨S, fun q α => (l.eig (diagonal (fun j => ((s q).eps j : ℂ)) + (α : ℂ) • auxDir s dir q)).1,
    fun q α => (l.eig (diagonal (fun j => ((s q).eps j : ℂ)) + (α : ℂ) • auxDir s dir q)).2, _,
    fun α => step_some.2 fun q => stepQ_hsub hh (hS q α), hS0, hSd, fun q α => ?_, fun α q => ⟨rfl, rfl⟩⟩
  exact hl.eig _ (hermitian_line (hermitian_rot (ht q).2) α)

theorem smear_shift (k : Kind) (σ mu e : ℝ) : smear k σ mu e = smear k σ 0 (e - mu) := by unfold smear xOf; simp

theorem smearPrime_shift (k : Kind) (σ mu e : ℝ) : smearPrime k σ mu e = smearPrime k σ 0 (e - mu) := by unfold smearPrime xOf; simp

theorem smearEntropy_shift (c : ℝ) (k : Kind) (σ mu e : ℝ) : smearEntropy c k σ mu e = smearEntropy c k σ 0 (e - mu) := by unfold smearEntropy xOf; simp

/-- Numerator of a state in `dmuNum`. -/
def numQ (i : Info Q n) (f : Search Q n) (p : Phys Q B) (s : Q → QState B n) (q : Q) : ℝ :=
  i.w q * ∑ j, smearPrime i.kind i.σ (muEff i (mults i f (fun q => (s q).eps)) q) ((s q).eps j) * ((Hsub i f p s q j j).re - (s q).eps j)

/-- Denominator of a state in `dmuDen`. -/
def denQ (i : Info Q n) (f : Search Q n) (s : Q → QState B n) (q : Q) : ℝ :=
  i.w q * ∑ j, smearPrime i.kind i.σ (muEff i (mults i f (fun q => (s q).eps)) q) ((s q).eps j)

/-- Change of the electron number of a state at fixed chemical potential. -/
def dirQ (i : Info Q n) (f : Search Q n) (s : Q → QState B n) (dir : Grad Q B n) (q : Q) : ℝ :=
  i.w q * ∑ j, smearPrime i.kind i.σ (muEff i (mults i f (fun q => (s q).eps)) q) ((s q).eps j) * (auxDir s dir q j j).re

theorem phi_eq {i : Info Q n} (hσ : i.σ ≠ 0) {s : Q → QState B n} (hsep : Separated s) (mu : ℝ) (q : Q) (a b : Fin n) :
    (open Classical in if |(s q).eps a - (s q).eps b| < 1e-6 then smearPrime i.kind i.σ mu ((s q).eps a)
      else (smear i.kind i.σ mu ((s q).eps a) - smear i.kind i.σ mu ((s q).eps b)) / ((s q).eps a - (s q).eps b))
      = dd (fun x => smear i.kind i.σ 0 x) ((s q).eps a - mu) ((s q).eps b - mu) := by
  unfold dd
  by_cases h : (s q).eps a = (s q).eps b
  · rw [h, if_pos (by norm_num), dslope_same, (C65_derivative i.kind i.σ 0 _ hσ).deriv, ← smearPrime_shift]
  · have h1 := hsep q a b h
    rw [if_neg (not_lt.2 h1), dslope_of_ne _ (by intro h2; exact h (by linarith)), slope_def_field, ← smear_shift, ← smear_shift]
    have h2 : (s q).eps a - (s q).eps b ≠ 0 := sub_ne_zero.2 h
    have h3 : (s q).eps b - mu - ((s q).eps a - mu) ≠ 0 := by intro h3; exact h (by linarith)
    rw [div_eq_div_iff h2 h3]
    ring

theorem dd_symm (f : ℝ → ℝ) (a b : ℝ) : dd f a b = dd f b a := by
  unfold dd
  by_cases h : a = b
  · rw [h]
  · rw [dslope_of_ne _ (Ne.symm h), dslope_of_ne _ h, slope_comm]

theorem density_hermitian (i : Info Q n) (f : Search Q n) (s : Q → QState B n) (q : Q) : (density i f s q).IsHermitian := by
  unfold density Matrix.IsHermitian
  rw [conjTranspose_mul, conjTranspose_mul, conjTranspose_conjTranspose, diagonal_conjTranspose, Matrix.mul_assoc]
  congr 3
  funext j; simp

theorem hsub_hermitian {i : Info Q n} {f : Search Q n} {p : Phys Q B} {w : Q → ℝ} (hp : p.OK w) (s : Q → QState B n) (q : Q) : (Hsub i f p s q).IsHermitian := by
  have h := hp.hermitian _ (density_hermitian i f s) q
  unfold Hsub Matrix.IsHermitian
  rw [conjTranspose_mul, conjTranspose_mul, conjTranspose_conjTranspose, h.eq, Matrix.mul_assoc]

/-- The wavefunction part of the slope. -/
theorem slope_C {i : Info Q n} {f : Search Q n} {p : Phys Q B} {s : Q → QState B n} (hu : Unitary s) (dir : Grad Q B n) (q : Q) :
    (∑ b, ∑ j, conj ((grad i f p s).C q b j) * dir.C q b j).re = i.w q * ((((p.H (density i f s) q * (s q).C - p.O q * (s q).C * (Hsub i f p s q))
      * diagonal (fun j => (fill i f (fun q => (s q).eps) q j : ℂ)))ᴴ * (dir.C q * (s q).rotPrevC)).trace.re) := by
  rw [dot_trace]
  have h1 : (grad i f p s).C q = ((i.w q : ℂ) • ((p.H (density i f s) q * (s q).C - p.O q * (s q).C * (Hsub i f p s q))
      * diagonal (fun j => (fill i f (fun q => (s q).eps) q j : ℂ)))) * ((s q).rotPrev)ᴴ := by
    show (rawGrad i f p s).C q * (s q).rotPrevCinv = _
    rw [(hu q).2.2]
    unfold rawGrad
    simp only
    congr 1
    rw [← Matrix.mul_smul]
    congr 1
    ext a b
    rw [Matrix.smul_apply, diagonal_apply, diagonal_apply]
    split_ifs <;> simp [mul_comm]
  rw [h1, conjTranspose_mul, conjTranspose_conjTranspose, conjTranspose_smul, (hu q).2.1]
  generalize ((p.H (density i f s) q * (s q).C - p.O q * (s q).C * Hsub i f p s q) * diagonal fun j => (fill i f (fun q => (s q).eps) q j : ℂ))ᴴ = G
  rw [Matrix.mul_smul, Matrix.smul_mul, trace_smul, Matrix.mul_assoc, Matrix.trace_mul_comm, Matrix.mul_assoc, smul_eq_mul, Complex.star_def, Complex.conj_ofReal,
    Complex.re_ofReal_mul]

/-- The auxiliary part of the slope. -/
theorem slope_H {i : Info Q n} (hh : i.hsub = true) (hσ : i.σ ≠ 0) {f : Search Q n} {p : Phys Q B} (hp : p.OK i.w) {s : Q → QState B n} (hsep : Separated s) (dir : Grad Q B n)
    (q : Q) (m' : ℝ) (M' : Mat n) (hM : ∀ a b, M' a b = (auxDir s dir q a b - if a = b then (m' : ℂ) else 0)
      * (dd (fun x => smear i.kind i.σ 0 x) ((s q).eps a - muEff i (mults i f (fun q => (s q).eps)) q) ((s q).eps b - muEff i (mults i f (fun q => (s q).eps)) q) : ℂ)) :
    i.w q * (Hsub i f p s q * M').trace.re
        - i.w q * ∑ j, ((auxDir s dir q j j).re - m') * (((s q).eps j - muEff i (mults i f (fun q => (s q).eps)) q)
            * smearPrime i.kind i.σ (muEff i (mults i f (fun q => (s q).eps)) q) ((s q).eps j))
      = (∑ a, ∑ j, conj ((grad i f p s).Haux q a j) * dir.Haux q a j).re
        + (-m' * numQ i f p s q + muEff i (dmults i f p s) q * dirQ i f s dir q
          + muEff i (mults i f (fun q => (s q).eps)) q * (dirQ i f s dir q - m' * denQ i f s q)) := by
  set mu := muEff i (mults i f (fun q => (s q).eps)) q with hmu
  set lam := muEff i (dmults i f p s) q with hlam
  set D := auxDir s dir q with hD
  have hHs := hsub_hermitian (i := i) (f := f) hp s q
  set Hs := Hsub i f p s q with hHsd
  let φ : Fin n → Fin n → ℝ := fun a b => dd (fun x => smear i.kind i.σ 0 x) ((s q).eps a - mu) ((s q).eps b - mu)
  have hφd : ∀ j, φ j j = smearPrime i.kind i.σ mu ((s q).eps j) := fun j => by
    simp only [φ, dd]
    rw [dslope_same, (C65_derivative i.kind i.σ 0 _ hσ).deriv, ← smearPrime_shift]
  have hφs : ∀ a b, φ a b = φ b a := fun a b => dd_symm _ _ _
  let gF : Mat n := Hs - diagonal (fun j => ((s q).eps j : ℂ)) - (lam : ℂ) • (1 : Mat n)
  have hsg : ∀ a b, smearGrad i mu (s q).eps gF a b = gF a b * (φ a b : ℂ) := by
    intro a b
    unfold smearGrad
    rw [phi_eq hσ hsep mu q a b]
  have hgF : gFᴴ = gF := by
    simp only [gF, conjTranspose_sub, hHs.eq, diagonal_conjTranspose, conjTranspose_smul, conjTranspose_one]
    congr 2
    · congr 1; funext j; simp
    · simp
  have hsgH : (smearGrad i mu (s q).eps gF)ᴴ = smearGrad i mu (s q).eps gF := by
    ext a b
    rw [conjTranspose_apply, hsg, hsg, star_mul', Complex.star_def, Complex.conj_ofReal, hφs b a]
    congr 1
    have := congrFun (congrFun hgF a) b
    rwa [conjTranspose_apply] at this
  have hsym : daggerSymm (smearGrad i mu (s q).eps gF) = smearGrad i mu (s q).eps gF := by
    unfold daggerSymm
    rw [hsgH, ← two_smul ℂ, smul_smul]
    norm_num
  have hg : (grad i f p s).Haux q = (s q).rotPrev * ((i.w q : ℂ) • smearGrad i mu (s q).eps gF) * ((s q).rotPrev)ᴴ := by
    show (if i.hsub = true then _ else _) = _
    rw [if_pos hh]
    show (s q).rotPrev * ((i.w q : ℂ) • daggerSymm (smearGrad i mu (s q).eps gF)) * ((s q).rotPrev)ᴴ = _
    rw [hsym]
  have hdot : (∑ a, ∑ j, conj ((grad i f p s).Haux q a j) * dir.Haux q a j).re = i.w q * (smearGrad i mu (s q).eps gF * D).trace.re := by
    rw [dot_trace, hg, conjTranspose_mul, conjTranspose_mul, conjTranspose_conjTranspose, conjTranspose_smul, hsgH]
    simp only [Matrix.smul_mul, Matrix.mul_smul, trace_smul, smul_eq_mul, Complex.star_def, Complex.conj_ofReal, Complex.re_ofReal_mul]
    congr 2
    rw [Matrix.mul_assoc, Matrix.trace_mul_comm, hD]
    unfold auxDir
    simp only [Matrix.mul_assoc]
  have ht1 : (smearGrad i mu (s q).eps gF * D).trace = ∑ a, ∑ b, gF a b * (φ a b : ℂ) * D b a := by
    unfold Matrix.trace
    simp only [diag_apply, Matrix.mul_apply, hsg]
  have ht2 : (Hs * M').trace = ∑ a, ∑ b, Hs a b * ((D b a - if b = a then (m' : ℂ) else 0) * (φ a b : ℂ)) := by
    unfold Matrix.trace
    simp only [diag_apply, Matrix.mul_apply]
    refine Finset.sum_congr rfl fun a _ => Finset.sum_congr rfl fun b _ => ?_
    rw [hM, hφs a b]
  have ht3 : (smearGrad i mu (s q).eps gF * D).trace - (Hs * M').trace = ∑ a, ((m' : ℂ) * Hs a a - (((s q).eps a : ℂ) + lam) * D a a) * (φ a a : ℂ) := by
    rw [ht1, ht2, ← Finset.sum_sub_distrib]
    refine Finset.sum_congr rfl fun a _ => ?_
    rw [← Finset.sum_sub_distrib]
    rw [Finset.sum_eq_single a]
    · simp only [gF, Matrix.sub_apply, diagonal_apply_eq, Matrix.smul_apply, one_apply_eq, smul_eq_mul, mul_one, if_true]
      ring
    · intro b _ hb
      simp only [gF, Matrix.sub_apply, Matrix.smul_apply, smul_eq_mul]
      rw [diagonal_apply_ne _ (Ne.symm hb), one_apply_ne (Ne.symm hb), if_neg hb]
      ring
    · intro h; exact absurd (Finset.mem_univ a) h
  have ht4 : (smearGrad i mu (s q).eps gF * D).trace.re = (Hs * M').trace.re + ∑ a, (m' * (Hs a a).re - ((s q).eps a + lam) * (D a a).re) * φ a a := by
    have := congrArg Complex.re ht3
    rw [Complex.sub_re, Complex.re_sum] at this
    have e : ∀ a, ((((m' : ℂ) * Hs a a - (((s q).eps a : ℂ) + lam) * D a a) * (φ a a : ℂ))).re = (m' * (Hs a a).re - ((s q).eps a + lam) * (D a a).re) * φ a a := by
      intro a
      rw [Complex.re_mul_ofReal, Complex.sub_re, Complex.re_ofReal_mul, ← Complex.ofReal_add, Complex.re_ofReal_mul]
    simp only [e] at this
    linarith
  rw [hdot, ht4]
  unfold numQ dirQ denQ
  simp only [← hmu, ← hD, ← hHsd, ← hφd]
  have hfin : ∑ j, ((D j j).re - m') * (((s q).eps j - mu) * φ j j)
      = -∑ a, (m' * (Hs a a).re - ((s q).eps a + lam) * (D a a).re) * φ a a + m' * ∑ j, φ j j * ((Hs j j).re - (s q).eps j) - lam * ∑ j, φ j j * (D j j).re
        - mu * (∑ j, φ j j * (D j j).re - m' * ∑ j, φ j j) := by
    simp only [Finset.mul_sum, ← Finset.sum_neg_distrib, ← Finset.sum_sub_distrib, ← Finset.sum_add_distrib]
    exact Finset.sum_congr rfl fun j _ => by ring
  rw [hfin]
  ring

/-- Change of energy and entropy along a step, when the chemical potentials of the states change at the rates `m'`. -/
theorem hsub_core {i : Info Q n} (hh : i.hsub = true) (hσ : i.σ ≠ 0) (hcut : 0 ≤ i.cut) {f : Search Q n} {p : Phys Q B} (hp : p.OK i.w) {s : Q → QState B n}
    (hu : Unitary s) (hsep : Separated s) (hc : CutOK i f s) {dir : Grad Q B n} (ht : Tangent p s dir)
    (hME : ∀ eps q, muEff i (multsE i f eps) q = muEff i (mults i f eps) q)
    {S V : Q → ℝ → Mat n} {ε : Q → ℝ → Fin n → ℝ} {s' : ℝ → Q → QState B n} (hS0 : ∀ q, S q 0 = 1) (hS : ∀ q, MDeriv (S q) 0 0)
    (hE : ∀ q (α : ℝ), Eig (diagonal (fun j => ((s q).eps j : ℂ)) + (α : ℂ) • auxDir s dir q) (V q α) (ε q α))
    (hs' : ∀ α q, (s' α q).C = ((s q).C + (α : ℂ) • (dir.C q * (s q).rotPrevC)) * (S q α * V q α) ∧ (s' α q).eps = ε q α)
    (m : Q → ℝ → ℝ) (m' : Q → ℝ) (hm : ∀ q α, m q α = muEff i (mults i f (fun q => (s' α q).eps)) q)
    (hm0 : ∀ q, m q 0 = muEff i (mults i f (fun q => (s q).eps)) q) (hm' : ∀ q, HasDerivAt (m q) (m' q) 0) :
    HasDerivAt (fun α => p.E (density i f (s' α)) - entropyTS i f (fun q => (s' α q).eps))
      (dot (grad i f p s) dir + ∑ q, (-m' q * numQ i f p s q + muEff i (dmults i f p s) q * dirQ i f s dir q
          + muEff i (mults i f (fun q => (s q).eps)) q * (dirQ i f s dir q - m' q * denQ i f s q))) 0
    ∧ ∀ q, HasDerivAt (fun α => i.w q * ∑ j, smear i.kind i.σ (m q α) (ε q α j)) (dirQ i f s dir q - m' q * denQ i f s q) 0 := by
  let K : Q → ℝ → Mat n := fun q α => diagonal (fun j => ((s q).eps j : ℂ)) + (α : ℂ) • auxDir s dir q - (m q α : ℂ) • (1 : Mat n)
  let κ0 : Q → Fin n → ℝ := fun q j => (s q).eps j - m q 0
  let K' : Q → Mat n := fun q => auxDir s dir q - (m' q : ℂ) • (1 : Mat n)
  have hKE : ∀ q α, Eig (K q α) (V q α) (fun j => ε q α j - m q α) := fun q α => eig_shift (hE q α) (m q α)
  have hK0 : ∀ q, K q 0 = diagonal (fun j => (κ0 q j : ℂ)) := by
    intro q
    ext a b
    simp only [K, κ0, Matrix.sub_apply, Matrix.add_apply, Matrix.smul_apply, smul_eq_mul]
    by_cases h : a = b
    · subst h; simp
    · simp [h]
  have hKd : ∀ q, MDeriv (K q) (K' q) 0 := by
    intro q a b
    have h1 := MDeriv.line (diagonal (fun j => ((s q).eps j : ℂ))) (auxDir s dir q) 0 a b
    have h2 := (ofReal_deriv (hm' q)).mul_const ((1 : Mat n) a b)
    exact h1.sub h2
  have hf : ∀ q j, HasDerivAt (fun x => smear i.kind i.σ 0 x) (smearPrime i.kind i.σ 0 (κ0 q j)) (κ0 q j) := fun q j => C65_derivative i.kind i.σ 0 _ hσ
  let f0 : ℝ → ℝ := fun x => smear i.kind i.σ 0 x
  have hK'jj : ∀ q j, (K' q j j).re = (auxDir s dir q j j).re - m' q := fun q j => by simp [K']
  have hpr : ∀ q j, smearPrime i.kind i.σ 0 (κ0 q j) = smearPrime i.kind i.σ (muEff i (mults i f (fun q => (s q).eps)) q) ((s q).eps j) := fun q j => by
    rw [← hm0 q, smearPrime_shift i.kind i.σ (m q 0)]
  constructor
  · -- energy
    let M : Q → ℝ → Mat n := fun q α => fn (V q α) (fun j => ε q α j - m q α) (fun x => (f0 x : ℂ))
    let M' : Q → Mat n := fun q a b => K' q a b * (dd f0 (κ0 q a) (κ0 q b) : ℂ)
    have hMd : ∀ q, MDeriv (M q) (M' q) 0 := fun q a b =>
      fn_deriv (K q) (V q) (fun α j => ε q α j - m q α) (κ0 q) (K' q) 0 (hKE q) (hK0 q) (hKd q) f0 (fun j => (hf q j).differentiableAt) a b
    have hM0 : ∀ q, M q 0 = diagonal (fun j => (f0 (κ0 q j) : ℂ)) := fun q => by
      have := hKE q 0
      rw [hK0] at this
      exact fn_start this f0
    have hdens : ∀ α q, density i f (s' α) q = ((s q).C + (α : ℂ) • (dir.C q * (s q).rotPrevC)) * S q α * M q α * (S q α)ᴴ
        * ((s q).C + (α : ℂ) • (dir.C q * (s q).rotPrevC))ᴴ := by
      intro α q
      have hfill : (fun j => (fill i f (fun q => (s' α q).eps) q j : ℂ)) = fun j => (f0 (ε q α j - m q α) : ℂ) := by
        funext j
        unfold fill
        rw [if_pos hh, ← hm, smear_shift]
        show ((smear i.kind i.σ 0 ((s' α q).eps j - m q α) : ℝ) : ℂ) = _
        rw [(hs' α q).2]
      unfold density
      rw [hfill, (hs' α q).1]
      simp only [M, fn, conjTranspose_mul, Matrix.mul_assoc]
    have hfill0 : ∀ q, (fun j => (f0 (κ0 q j) : ℂ)) = fun j => (fill i f (fun q => (s q).eps) q j : ℂ) := by
      intro q; funext j
      unfold fill
      rw [if_pos hh, ← hm0, smear_shift]
    have hE0 := hp.deriv (fun α => density i f (s' α)) (fun q => dir.C q * (s q).rotPrevC * diagonal (fun j => (f0 (κ0 q j) : ℂ)) * ((s q).C)ᴴ + (s q).C * M' q * ((s q).C)ᴴ
        + (s q).C * diagonal (fun j => (f0 (κ0 q j) : ℂ)) * (dir.C q * (s q).rotPrevC)ᴴ) (fun α q => density_hermitian i f (s' α) q) (fun q => by
          have := density_deriv (C := (s q).C) (Y := dir.C q * (s q).rotPrevC) (hS0 q) (hS q) (hM0 q) (hMd q)
          simp only [hdens]
          exact this)
    have hd0 : density i f (s' 0) = density i f s := by
      funext q
      rw [hdens, hM0, hS0, hfill0]
      simp [density]
    -- entropy
    have hTS : HasDerivAt (fun α => entropyTS i f (fun q => (s' α q).eps))
        (∑ q, i.w q * ∑ j, ((auxDir s dir q j j).re - m' q) * (((s q).eps j - muEff i (mults i f (fun q => (s q).eps)) q)
            * smearPrime i.kind i.σ (muEff i (mults i f (fun q => (s q).eps)) q) ((s q).eps j))) 0 := by
      unfold entropyTS
      refine HasDerivAt.fun_sum fun q _ => ?_
      have hent : ∀ j, HasDerivAt (fun x => smearEntropy i.cut i.kind i.σ 0 x) ((fun x => (x - 0) / i.σ * smearPrime i.kind i.σ 0 x) (κ0 q j)) (κ0 q j) := by
        intro j
        refine C65_entropy i.cut hcut i.kind i.σ 0 _ hσ fun hk => ?_
        have := hc hk q j
        have e : fill i f (fun q => (s q).eps) q j = smear .fermi i.σ 0 (κ0 q j) := by
          unfold fill
          rw [if_pos hh, ← hm0, smear_shift, hk]
        rwa [e] at this
      have h1 := sum_deriv (K q) (V q) (fun α j => ε q α j - m q α) (κ0 q) (K' q) (hKE q) (hK0 q) (hKd q) (fun x => smearEntropy i.cut i.kind i.σ 0 x)
        (fun x => (x - 0) / i.σ * smearPrime i.kind i.σ 0 x) hent
      have h2 := h1.const_mul (i.σ * i.w q)
      have e : (fun α => i.σ * i.w q * ∑ j, smearEntropy i.cut i.kind i.σ (muEff i (multsE i f fun q => (s' α q).eps) q) ((s' α q).eps j))
          = fun α => i.σ * i.w q * ∑ j, smearEntropy i.cut i.kind i.σ 0 (ε q α j - m q α) := by
        funext α
        congr 1
        refine Finset.sum_congr rfl fun j _ => ?_
        rw [hME, ← hm, smearEntropy_shift, (hs' α q).2]
      rw [e]
      refine h2.congr_deriv ?_
      rw [mul_comm i.σ, mul_assoc]
      congr 1
      rw [Finset.mul_sum]
      refine Finset.sum_congr rfl fun j _ => ?_
      rw [hK'jj, hpr]
      simp only [κ0, hm0]
      field_simp
      ring
    refine (hE0.sub hTS).congr_deriv ?_
    rw [hd0]
    unfold dot
    rw [← Finset.sum_sub_distrib, ← Finset.sum_add_distrib]
    refine Finset.sum_congr rfl fun q _ => ?_
    have hHh := hp.hermitian _ (density_hermitian i f s) q
    have hY : ((s q).C)ᴴ * (p.O q * (dir.C q * (s q).rotPrevC)) = 0 := by
      rw [← Matrix.mul_assoc (p.O q), ← Matrix.mul_assoc, (ht q).1, Matrix.zero_mul]
    have h1 := energy_trace hHh (hp.overlap q).1 hY (fun j => f0 (κ0 q j)) (M' q)
    have h2 := slope_C (i := i) (f := f) (p := p) hu dir q
    have h3 := slope_H hh hσ (f := f) hp hsep dir q (m' q) (M' q) (fun a b => by
      simp only [M', K', κ0, hm0, f0, Matrix.sub_apply, Matrix.smul_apply, smul_eq_mul, one_apply]
      congr 2
      split_ifs <;> simp)
    rw [h1, h2]
    rw [hfill0 q]
    unfold Hsub at h3 ⊢
    linarith
  · intro q
    have h1 := (sum_deriv (K q) (V q) (fun α j => ε q α j - m q α) (κ0 q) (K' q) (hKE q) (hK0 q) (hKd q) f0 (fun x => smearPrime i.kind i.σ 0 x) (hf q)).const_mul (i.w q)
    have e : (fun α => i.w q * ∑ j, smear i.kind i.σ (m q α) (ε q α j)) = fun α => i.w q * ∑ j, f0 (ε q α j - m q α) := by
      funext α
      congr 1
      exact Finset.sum_congr rfl fun j _ => smear_shift _ _ _ _
    rw [e]
    refine h1.congr_deriv ?_
    unfold dirQ denQ
    simp only [hK'jj, hpr]
    rw [← mul_assoc, mul_comm (m' q), mul_assoc, ← mul_sub]
    congr 1
    rw [Finset.mul_sum, ← Finset.sum_sub_distrib]
    exact Finset.sum_congr rfl fun j _ => by ring

end
end Jdftx.ElecMin
