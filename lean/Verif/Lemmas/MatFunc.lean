import Verif.Spec.MatFunc
import Verif.Lemmas.ElecMinStd
import Mathlib.LinearAlgebra.Matrix.PosDef
import Mathlib.Analysis.Complex.Order
import Mathlib.Analysis.SpecialFunctions.Trigonometric.Deriv

/-! # Lemmas on functions of matrices -/
set_option linter.unusedSectionVars false
namespace Jdftx.MatFunc
open Matrix Jdftx.MatFn ComplexConjugate
open scoped ComplexOrder
noncomputable section
variable {n : ℕ}

theorem assemble_fn (V : Mat n) (κ : Fin n → ℝ) (g : ℝ → ℂ) : assemble V (fun i => g (κ i)) = fn V κ g := rfl

theorem eig_diag {A V : Mat n} {κ : Fin n → ℝ} (h : Eig A V κ) : Vᴴ * A * V = diagonal (fun j => (κ j : ℂ)) := by
  rw [Matrix.mul_assoc, h.eq, ← Matrix.mul_assoc, h.left, Matrix.one_mul]

theorem eig_eq {A V : Mat n} {κ : Fin n → ℝ} (h : Eig A V κ) : A = V * diagonal (fun j => (κ j : ℂ)) * Vᴴ := by
  rw [← h.eq, Matrix.mul_assoc, h.right, Matrix.mul_one]

theorem inj_left {V : Mat n} (h : Vᴴ * V = 1) : Function.Injective V.mulVec := by
  intro x y hxy
  have := congrArg (Vᴴ.mulVec) hxy
  simpa [Matrix.mulVec_mulVec, h] using this

theorem eig_pos {A V : Mat n} {κ : Fin n → ℝ} (h : Eig A V κ) : A.PosDef ↔ ∀ j, 0 < κ j := by
  constructor
  · intro hA j
    have h1 := hA.conjTranspose_mul_mul_same (inj_left h.left)
    rw [eig_diag h] at h1
    have := h1.diag_pos (i := j)
    rw [diagonal_apply_eq] at this
    exact_mod_cast this
  · intro hk
    rw [eig_eq h]
    have h2 : (diagonal (fun j => (κ j : ℂ)) : Mat n).PosDef := PosDef.diagonal fun j => by exact_mod_cast hk j
    have h3 := h2.conjTranspose_mul_mul_same (B := Vᴴ) (inj_left (by rw [conjTranspose_conjTranspose]; exact h.right))
    rwa [conjTranspose_conjTranspose] at h3

theorem eig_nonneg {A V : Mat n} {κ : Fin n → ℝ} (h : Eig A V κ) : A.PosSemidef ↔ ∀ j, 0 ≤ κ j := by
  constructor
  · intro hA j
    have h1 := hA.conjTranspose_mul_mul_same V
    rw [eig_diag h] at h1
    have := h1.diag_nonneg (i := j)
    rw [diagonal_apply_eq] at this
    exact_mod_cast this
  · intro hk
    rw [eig_eq h]
    have h2 : (diagonal (fun j => (κ j : ℂ)) : Mat n).PosSemidef := PosSemidef.diagonal fun j => by
      have : (0 : ℂ) ≤ (κ j : ℂ) := by exact_mod_cast hk j
      exact this
    have h3 := h2.conjTranspose_mul_mul_same Vᴴ
    rwa [conjTranspose_conjTranspose] at h3

theorem fn_mul {V : Mat n} (h : Vᴴ * V = 1) (κ : Fin n → ℝ) (g g' : ℝ → ℂ) : fn V κ g * fn V κ g' = fn V κ (fun x => g x * g' x) := by
  unfold fn
  calc V * diagonal (fun j => g (κ j)) * Vᴴ * (V * diagonal (fun j => g' (κ j)) * Vᴴ)
      = V * (diagonal (fun j => g (κ j)) * (Vᴴ * V) * diagonal (fun j => g' (κ j))) * Vᴴ := by simp only [Matrix.mul_assoc]
    _ = _ := by rw [h, Matrix.mul_one, diagonal_mul_diagonal]

theorem fn_congr (V : Mat n) {κ : Fin n → ℝ} {g g' : ℝ → ℂ} (h : ∀ j, g (κ j) = g' (κ j)) : fn V κ g = fn V κ g' := by
  unfold fn
  congr 3
  funext j
  exact h j

theorem fn_one {V : Mat n} (h : V * Vᴴ = 1) (κ : Fin n → ℝ) : fn V κ (fun _ => 1) = 1 := by
  unfold fn
  rw [diagonal_one, Matrix.mul_one, h]

theorem fn_id {A V : Mat n} {κ : Fin n → ℝ} (h : Eig A V κ) : fn V κ (fun x => (x : ℂ)) = A := (eig_eq h).symm

theorem fn_dagger (V : Mat n) (κ : Fin n → ℝ) (g : ℝ → ℂ) : (fn V κ g)ᴴ = fn V κ (fun x => conj (g x)) := by
  unfold fn
  rw [conjTranspose_mul, conjTranspose_mul, conjTranspose_conjTranspose, diagonal_conjTranspose, Matrix.mul_assoc]
  rfl

/-- The result does not depend on the eigenvectors chosen. -/
theorem fn_unique {A V V' : Mat n} {κ κ' : Fin n → ℝ} (h : Eig A V κ) (h' : Eig A V' κ') (g : ℝ → ℂ) : fn V κ g = fn V' κ' g := by
  have hW : ∀ i j, (κ i : ℂ) * (Vᴴ * V') i j = (Vᴴ * V') i j * (κ' j : ℂ) := by
    have e : diagonal (fun j => (κ j : ℂ)) * (Vᴴ * V') = (Vᴴ * V') * diagonal (fun j => (κ' j : ℂ)) := by
      rw [← eig_diag h]
      calc Vᴴ * A * V * (Vᴴ * V') = Vᴴ * A * (V * Vᴴ) * V' := by simp only [Matrix.mul_assoc]
        _ = Vᴴ * (A * V') := by rw [h.right, Matrix.mul_one, Matrix.mul_assoc]
        _ = _ := by rw [h'.eq, Matrix.mul_assoc]
    intro i j
    have := congrFun (congrFun e i) j
    rwa [Matrix.diagonal_mul, Matrix.mul_diagonal] at this
  have hg : diagonal (fun j => g (κ j)) * (Vᴴ * V') = (Vᴴ * V') * diagonal (fun j => g (κ' j)) := by
    ext i j
    rw [Matrix.diagonal_mul, Matrix.mul_diagonal]
    by_cases h0 : (Vᴴ * V') i j = 0
    · rw [h0]; simp
    · have h1 := hW i j
      rw [mul_comm, mul_right_inj' h0] at h1
      have : κ i = κ' j := by exact_mod_cast h1
      rw [this, mul_comm]
  unfold fn
  calc V * diagonal (fun j => g (κ j)) * Vᴴ = V * diagonal (fun j => g (κ j)) * Vᴴ * (V' * V'ᴴ) := by rw [h'.right, Matrix.mul_one]
    _ = V * (diagonal (fun j => g (κ j)) * (Vᴴ * V')) * V'ᴴ := by simp only [Matrix.mul_assoc]
    _ = (V * Vᴴ) * V' * diagonal (fun j => g (κ' j)) * V'ᴴ := by rw [hg]; simp only [Matrix.mul_assoc]
    _ = _ := by rw [h.right, Matrix.one_mul]

/-- Derivative at any Hermitian matrix. -/
theorem fn_deriv' {K V : ℝ → Mat n} {κ : ℝ → Fin n → ℝ} {K' : Mat n} (hE : ∀ t, Eig (K t) (V t) (κ t)) (hK : MDeriv K K' 0) {f : ℝ → ℝ}
    (hf : ∀ i, DifferentiableAt ℝ f (κ 0 i)) :
    MDeriv (fun t => fn (V t) (κ t) (fun x => (f x : ℂ)))
      (V 0 * (Matrix.of fun i l => ((V 0)ᴴ * K' * V 0) i l * (dd f (κ 0 i) (κ 0 l) : ℂ)) * (V 0)ᴴ) 0 := by
  set V0 := V 0 with hV0
  have hl := (hE 0).left
  have hr := (hE 0).right
  rw [← hV0] at hl hr
  have hB : ∀ t, Eig (V0ᴴ * K t * V0) (V0ᴴ * V t) (κ t) := fun t =>
    { left := by
        rw [conjTranspose_mul, conjTranspose_conjTranspose, Matrix.mul_assoc, ← Matrix.mul_assoc V0, hr, Matrix.one_mul, (hE t).left]
      right := by
        rw [conjTranspose_mul, conjTranspose_conjTranspose, Matrix.mul_assoc, ← Matrix.mul_assoc (V t), (hE t).right, Matrix.one_mul, hl]
      eq := by
        calc V0ᴴ * K t * V0 * (V0ᴴ * V t) = V0ᴴ * K t * (V0 * V0ᴴ) * V t := by simp only [Matrix.mul_assoc]
          _ = _ := by rw [hr, Matrix.mul_one, Matrix.mul_assoc, (hE t).eq, Matrix.mul_assoc] }
  have hB0 : V0ᴴ * K 0 * V0 = diagonal (fun j => (κ 0 j : ℂ)) := eig_diag (hE 0)
  have hBd : MDeriv (fun t => V0ᴴ * K t * V0) (V0ᴴ * K' * V0) 0 := by
    have h := ((MDeriv.const V0ᴴ 0).mul hK).mul (MDeriv.const V0 0)
    have e : ((0 : Mat n) * K 0 + V0ᴴ * K') * V0 + V0ᴴ * K 0 * (0 : Mat n) = V0ᴴ * K' * V0 := by simp
    rw [e] at h
    exact h
  have hd : MDeriv (fun t => fn (V0ᴴ * V t) (κ t) (fun x => (f x : ℂ))) (Matrix.of fun i l => (V0ᴴ * K' * V0) i l * (dd f (κ 0 i) (κ 0 l) : ℂ)) 0 := fun i l =>
    fn_deriv _ _ κ (κ 0) _ 0 hB hB0 hBd f hf i l
  have h := ((MDeriv.const V0 0).mul hd).mul (MDeriv.const V0ᴴ 0)
  have e2 : (fun t => V0 * fn (V0ᴴ * V t) (κ t) (fun x => (f x : ℂ)) * V0ᴴ) = fun t => fn (V t) (κ t) (fun x => (f x : ℂ)) := by
    funext t
    unfold fn
    rw [conjTranspose_mul, conjTranspose_conjTranspose]
    calc V0 * (V0ᴴ * V t * diagonal (fun j => (f (κ t j) : ℂ)) * ((V t)ᴴ * V0)) * V0ᴴ
        = (V0 * V0ᴴ) * V t * diagonal (fun j => (f (κ t j) : ℂ)) * (V t)ᴴ * (V0 * V0ᴴ) := by simp only [Matrix.mul_assoc]
      _ = _ := by rw [hr, Matrix.one_mul, Matrix.mul_one]
  rw [e2] at h
  have e3 : ∀ X : Mat n, ((0 : Mat n) * fn (V0ᴴ * V 0) (κ 0) (fun x => (f x : ℂ)) + V0 * X) * V0ᴴ + V0 * fn (V0ᴴ * V 0) (κ 0) (fun x => (f x : ℂ)) * (0 : Mat n) = V0 * X * V0ᴴ := by
    intro X; simp
  rw [e3] at h
  exact h

/-- Traces with a matrix of divided differences. -/
theorem trace_dd (V G D : Mat n) (c c' : Fin n → Fin n → ℂ) (hc : ∀ i l, c' l i = c i l) :
    (G * (V * (Matrix.of fun i l => (Vᴴ * D * V) i l * c i l) * Vᴴ)).trace = (funcGrad c' G V * D).trace := by
  have e1 : (G * (V * (Matrix.of fun i l => (Vᴴ * D * V) i l * c i l) * Vᴴ)).trace = ((Vᴴ * G * V) * Matrix.of fun i l => (Vᴴ * D * V) i l * c i l).trace := by
    rw [← Matrix.mul_assoc, Matrix.trace_mul_comm]
    simp only [Matrix.mul_assoc]
  have e2 : (funcGrad c' G V * D).trace = ((Matrix.of fun i j => (Vᴴ * G * V) i j * c' i j) * (Vᴴ * D * V)).trace := by
    unfold funcGrad
    rw [Matrix.mul_assoc V, Matrix.mul_assoc V, Matrix.trace_mul_comm]
    simp only [Matrix.mul_assoc]
  rw [e1, e2]
  unfold Matrix.trace
  simp only [diag_apply, Matrix.mul_apply (M := Vᴴ * G * V), Matrix.mul_apply (N := Vᴴ * D * V), Matrix.of_apply]
  refine Finset.sum_congr rfl fun i _ => Finset.sum_congr rfl fun l _ => ?_
  rw [hc l i]
  ring

open Classical in
/-- The function applied to the eigenvalues by `pow`. -/
def powFn (p e : ℝ) : ℝ := if p < 0 ∧ e ≤ 0 then 0 else if 0 ≤ p ∧ e < 0 then 0 else e ^ p

theorem powFn_pos {p e : ℝ} (h : 0 < e) : powFn p e = e ^ p := by
  unfold powFn
  rw [if_neg (by rintro ⟨_, h2⟩; linarith), if_neg (by rintro ⟨_, h2⟩; linarith)]

theorem powFn_nonneg (p e : ℝ) : 0 ≤ powFn p e := by
  unfold powFn
  split
  · exact le_rfl
  · split
    · exact le_rfl
    · rename_i h1 h2
      apply Real.rpow_nonneg
      by_contra h
      push Not at h h1 h2
      by_cases hp : p < 0
      · linarith [h1 hp]
      · linarith [h2 (not_lt.1 hp)]

theorem powFn_half (e : ℝ) : powFn (1/2) e = Real.sqrt e := by
  unfold powFn
  rw [if_neg (by rintro ⟨h, _⟩; norm_num at h)]
  split
  · rename_i h; rw [Real.sqrt_eq_zero_of_nonpos h.2.le]
  · rw [Real.sqrt_eq_rpow]

open Classical in
/-- The eigenvalue handed back by `pow`. -/
def eigFn (p e : ℝ) : ℝ := if 0 ≤ p ∧ e < 0 then 0 else e

theorem powOne_some {p e : ℝ} {h : Bool} (hok : 0 ≤ p ∨ h = true ∨ 0 < e) : powOne p h e = some (powFn p e, eigFn p e, decide (p < 0 ∧ e ≤ 0)) := by
  unfold powOne powFn eigFn
  by_cases h1 : p < 0 ∧ e ≤ 0
  · rw [if_pos h1, if_pos h1]
    have : h = true := by
      rcases hok with h2 | h2 | h2
      · linarith [h1.1]
      · exact h2
      · linarith [h1.2]
    rw [if_pos this, if_neg (by rintro ⟨h3, _⟩; linarith [h1.1])]
    simp [h1]
  · rw [if_neg h1, if_neg h1]
    by_cases h2 : 0 ≤ p ∧ e < 0
    · rw [if_pos h2, if_pos h2, if_pos h2]
      simp [h1]
    · rw [if_neg h2, if_neg h2, if_neg h2]
      simp [h1]

/-- What `pow` returns. -/
theorem pow_some {d : Diag n} (hd : DiagOK d) {A : Mat n} (hA : A.IsHermitian) {p : ℝ} {h : Bool} (hok : 0 ≤ p ∨ h = true ∨ A.PosDef) :
    ∃ S : Prop, pow d A p h = some ⟨fn (d A).1 (d A).2 (fun x => (powFn p x : ℂ)), (d A).1, fun i => eigFn p ((d A).2 i), S⟩ ∧ (S ↔ p < 0 ∧ ¬ A.PosDef) := by
  have hE := hd A hA
  have he' : ∀ i, powOne p h ((d A).2 i) = some (powFn p ((d A).2 i), eigFn p ((d A).2 i), decide (p < 0 ∧ (d A).2 i ≤ 0)) := by
    intro i
    refine powOne_some ?_
    rcases hok with h1 | h1 | h1
    · exact Or.inl h1
    · exact Or.inr (Or.inl h1)
    · exact Or.inr (Or.inr ((eig_pos hE).1 h1 i))
  have hs : ∀ i, (powOne p h ((d A).2 i)).isSome := fun i => by rw [he' i]; rfl
  have hget : ∀ i, (powOne p h ((d A).2 i)).get (hs i) = (powFn p ((d A).2 i), eigFn p ((d A).2 i), decide (p < 0 ∧ (d A).2 i ≤ 0)) := fun i =>
    Option.get_of_eq_some (hs i) (he' i)
  refine ⟨∃ i, p < 0 ∧ (d A).2 i ≤ 0, ?_, ?_⟩
  · unfold pow
    rw [dif_pos hs]
    simp only [hget, decide_eq_true_eq]
    rfl
  · rw [eig_pos hE]
    push Not
    constructor
    · rintro ⟨i, h1, h2⟩; exact ⟨h1, i, h2⟩
    · rintro ⟨h1, i, h2⟩; exact ⟨i, h1, h2⟩

theorem pow_none {d : Diag n} (hd : DiagOK d) {A : Mat n} (hA : A.IsHermitian) {p : ℝ} (hp : p < 0) (hn : ¬ A.PosDef) : pow d A p false = none := by
  rw [eig_pos (hd A hA)] at hn
  push Not at hn
  obtain ⟨i, hi⟩ := hn
  unfold pow
  rw [dif_neg]
  intro h
  have := h i
  unfold powOne at this
  rw [if_pos ⟨hp, hi⟩] at this
  simp at this

theorem fn_eig {A V : Mat n} {κ : Fin n → ℝ} (h : Eig A V κ) (f : ℝ → ℝ) : Eig (fn V κ (fun x => (f x : ℂ))) V (fun i => f (κ i)) where
  left := h.left
  right := h.right
  eq := by unfold fn; rw [Matrix.mul_assoc, h.left, Matrix.mul_one]

theorem fn_herm (V : Mat n) (κ : Fin n → ℝ) (f : ℝ → ℝ) : (fn V κ (fun x => (f x : ℂ))).IsHermitian := by
  unfold Matrix.IsHermitian
  rw [fn_dagger]
  exact fn_congr V fun j => Complex.conj_ofReal _

theorem eig_herm {A V : Mat n} {κ : Fin n → ℝ} (h : Eig A V κ) : A.IsHermitian := by
  rw [← fn_id h]; exact fn_herm V κ id

theorem pow_value {d : Diag n} (hd : DiagOK d) {A : Mat n} (hA : A.IsHermitian) {p : ℝ} {h : Bool} {r : Pow n} (hr : pow d A p h = some r) :
    r.value = fn (d A).1 (d A).2 (fun x => (powFn p x : ℂ)) ∧ r.evecs = (d A).1 ∧ (r.eigs = fun i => eigFn p ((d A).2 i)) ∧ (r.singular ↔ p < 0 ∧ ¬ A.PosDef) := by
  by_cases hok : 0 ≤ p ∨ h = true ∨ A.PosDef
  · obtain ⟨S, h1, h2⟩ := pow_some hd hA hok
    rw [h1] at hr
    obtain rfl := Option.some.inj hr
    exact ⟨rfl, rfl, rfl, h2⟩
  · push Not at hok
    have : h = false := by simpa using hok.2.1
    rw [this, pow_none hd hA hok.1 hok.2.2] at hr
    simp at hr

theorem re_trace_sq {m k : Type*} [Fintype m] [Fintype k] (Y : Matrix m k ℂ) : (Yᴴ * Y).trace.re = ∑ a, ∑ b, ‖Y a b‖ ^ 2 := by
  unfold Matrix.trace
  simp only [diag_apply, Matrix.mul_apply, conjTranspose_apply]
  rw [Complex.re_sum, Finset.sum_comm]
  refine Finset.sum_congr rfl fun b _ => ?_
  rw [Complex.re_sum]
  refine Finset.sum_congr rfl fun a _ => ?_
  rw [Complex.star_def, ← Complex.normSq_eq_conj_mul_self, Complex.ofReal_re, Complex.normSq_eq_norm_sq]

theorem dist2_trace {m k : Type*} [Fintype m] [Fintype k] (A B : Matrix m k ℂ) : dist2 A B = ((A - B)ᴴ * (A - B)).trace.re := by
  rw [re_trace_sq]; rfl

/-- Distance of two orthonormal sets from a third set. -/
theorem dist_diff {m : ℕ} {U W W' : Matrix (Fin m) (Fin n) ℂ} {S T : Mat n} (hS : S.IsHermitian) (hT : T.IsHermitian) (hTT : T * T = S) (hU : U = W * S)
    (hW : Wᴴ * W = 1) (hW' : W'ᴴ * W' = 1) : dist2 U W' - dist2 U W = ∑ a, ∑ b, ‖((W - W') * T) a b‖ ^ 2 := by
  rw [dist2_trace, dist2_trace, ← re_trace_sq, ← Complex.sub_re, ← Matrix.trace_sub]
  congr 1
  have e1 : (U - W')ᴴ * (U - W') - (U - W)ᴴ * (U - W) = S * Wᴴ * W + Wᴴ * W * S - S * Wᴴ * W' - W'ᴴ * W * S := by
    rw [conjTranspose_sub, conjTranspose_sub, hU, conjTranspose_mul, hS.eq]
    have h1 : W'ᴴ * W' = Wᴴ * W := hW'.trans hW.symm
    simp only [Matrix.sub_mul, Matrix.mul_sub, Matrix.mul_assoc] at h1 ⊢
    rw [h1]
    abel
  have e2 : ((W - W') * T)ᴴ * ((W - W') * T) = T * ((W - W')ᴴ * (W - W')) * T := by
    rw [conjTranspose_mul, hT.eq]; simp only [Matrix.mul_assoc]
  have e3 : (W - W')ᴴ * (W - W') = Wᴴ * W + Wᴴ * W - Wᴴ * W' - W'ᴴ * W := by
    have h1 : W'ᴴ * W' = Wᴴ * W := hW'.trans hW.symm
    rw [conjTranspose_sub]
    simp only [Matrix.sub_mul, Matrix.mul_sub]
    rw [h1]
    abel
  rw [e1, e2, e3, Matrix.trace_mul_comm, ← Matrix.mul_assoc, hTT]
  simp only [Matrix.mul_sub, Matrix.mul_add, Matrix.trace_sub, Matrix.trace_add]
  rw [Matrix.trace_mul_comm (Wᴴ * W) S, Matrix.trace_mul_comm (W'ᴴ * W) S]
  simp only [Matrix.mul_assoc]

theorem psd_kernel {m k : ℕ} {K : Matrix (Fin m) (Fin m) ℂ} (hK : K.PosSemidef) {Y : Matrix (Fin m) (Fin k) ℂ} (h : Yᴴ * (K * Y) = 0) : K * Y = 0 := by
  obtain ⟨⟨V, κ⟩, hE⟩ := ElecMin.eig_exists hK.1
  obtain ⟨B, hB⟩ : ∃ B : Mat m, K = Bᴴ * B := by
    refine ⟨fn V κ (fun x => (Real.sqrt x : ℂ)), ?_⟩
    rw [(fn_herm V κ Real.sqrt).eq, fn_mul hE.left]
    refine (fn_id hE).symm.trans (fn_congr V fun j => ?_)
    have := Real.mul_self_sqrt ((eig_nonneg hE).1 hK j)
    show ((κ j : ℝ) : ℂ) = _
    rw [← Complex.ofReal_mul, this]
  have h1 : (B * Y)ᴴ * (B * Y) = 0 := by
    rw [← h, hB, conjTranspose_mul]; simp only [Matrix.mul_assoc]
  have h2 := Matrix.conjTranspose_mul_self_eq_zero.1 h1
  rw [hB, Matrix.mul_assoc, h2, Matrix.mul_zero]

/-- Properties of the inverse square root with projection. -/
theorem invsqrt_psd {A V : Mat n} {κ : Fin n → ℝ} (h : Eig A V κ) (hA : A.PosSemidef) {R : Mat n} (hR : R = fn V κ (fun x => (powFn (-0.5) x : ℂ))) :
    let P := R * A * R
    R.IsHermitian ∧ P * P = P ∧ P.IsHermitian ∧ P * A = A ∧ R * P = R ∧ R * R * A = P ∧ A * P = A ∧ P * R = R := by
  intro P
  have hk := (eig_nonneg h).1 hA
  have key : ∀ x : ℝ, 0 ≤ x → powFn (-0.5) x = 0 ∧ x = 0 ∨ powFn (-0.5) x * x * powFn (-0.5) x = 1 := by
    intro x hx
    rcases hx.eq_or_lt with h0 | h0
    · left
      refine ⟨?_, h0.symm⟩
      unfold powFn
      rw [if_pos ⟨by norm_num, h0.symm.le⟩]
    · right
      rw [powFn_pos h0]
      have : x ^ (-0.5 : ℝ) * x ^ (1 : ℝ) * x ^ (-0.5 : ℝ) = 1 := by
        rw [← Real.rpow_add h0, ← Real.rpow_add h0]; norm_num
      rwa [Real.rpow_one] at this
  have hP : P = fn V κ (fun x => ((powFn (-0.5) x * x * powFn (-0.5) x : ℝ) : ℂ)) := by
    have hA' := fn_id h
    show R * A * R = _
    rw [hR, ← hA', fn_mul h.left, fn_mul h.left]
    exact fn_congr V fun j => by push_cast; ring
  refine ⟨by rw [hR]; exact fn_herm _ _ _, ?_, by rw [hP]; exact fn_herm _ _ _, ?_, ?_, ?_, ?_, ?_⟩
  · rw [hP, fn_mul h.left]
    refine fn_congr V fun j => ?_
    rcases key _ (hk j) with ⟨h1, h2⟩ | h1
    · simp [h1]
    · rw [h1]; simp
  · rw [hP]; nth_rw 1 [← fn_id h]; rw [fn_mul h.left]; refine Eq.trans ?_ (fn_id h)
    refine fn_congr V fun j => ?_
    rcases key _ (hk j) with ⟨h1, h2⟩ | h1
    · simp [h2]
    · rw [h1]; simp
  · rw [hP, hR, fn_mul h.left]
    refine fn_congr V fun j => ?_
    rcases key _ (hk j) with ⟨h1, h2⟩ | h1
    · simp [h1]
    · rw [h1]; simp
  · rw [hP, hR]; nth_rw 1 [← fn_id h]; rw [fn_mul h.left, fn_mul h.left]
    exact fn_congr V fun j => by push_cast; ring
  · rw [hP]; nth_rw 1 [← fn_id h]; rw [fn_mul h.left]; refine Eq.trans ?_ (fn_id h)
    refine fn_congr V fun j => ?_
    rcases key _ (hk j) with ⟨h1, h2⟩ | h1
    · simp [h2]
    · rw [h1]; simp
  · rw [hP, hR, fn_mul h.left]
    refine fn_congr V fun j => ?_
    rcases key _ (hk j) with ⟨h1, h2⟩ | h1
    · simp [h1]
    · rw [h1]; simp

theorem MDeriv_trace {A : ℝ → Mat n} {A' : Mat n} {t : ℝ} (h : MDeriv A A' t) : HasDerivAt (fun t => (A t).trace) A'.trace t := by
  unfold Matrix.trace
  exact HasDerivAt.fun_sum fun i _ => h i i

end
end Jdftx.MatFunc
