import Verif.Lemmas.MatrixFunction
import Mathlib.Analysis.Calculus.Deriv.Inv
import Mathlib.Analysis.SpecialFunctions.Sqrt
import Mathlib.LinearAlgebra.Matrix.NonsingularInverse
import Mathlib.Analysis.Complex.RealDeriv

/-!
# Derivatives of matrices depending on a real parameter, entry by entry; the Cholesky factor near the identity
-/
set_option linter.unusedSectionVars false
namespace Jdftx.MatFn
open Matrix Filter Topology ComplexConjugate

/-- Every entry of `A` has the derivative given by `A'`. -/
def MDeriv {m n : Type*} (A : ℝ → Matrix m n ℂ) (A' : Matrix m n ℂ) (t : ℝ) : Prop := ∀ i j, HasDerivAt (fun t => A t i j) (A' i j) t

variable {l m n : Type*} [Fintype l] [Fintype m] [Fintype n]

theorem conj_deriv {u : ℝ → ℂ} {u' : ℂ} {t : ℝ} (h : HasDerivAt u u' t) : HasDerivAt (fun t => conj (u t)) (conj u') t := by
  have := (Complex.conjCLE.toContinuousLinearMap.hasFDerivAt (x := u t)).comp_hasDerivAt t h
  simpa [Function.comp_def] using this

theorem re_deriv {u : ℝ → ℂ} {u' : ℂ} {t : ℝ} (h : HasDerivAt u u' t) : HasDerivAt (fun t => (u t).re) u'.re t := by
  have := (Complex.reCLM.hasFDerivAt (x := u t)).comp_hasDerivAt t h
  simpa [Function.comp_def] using this

theorem ofReal_deriv {u : ℝ → ℝ} {u' t : ℝ} (h : HasDerivAt u u' t) : HasDerivAt (fun t => (u t : ℂ)) (u' : ℂ) t := by
  have := (Complex.ofRealCLM.hasFDerivAt (x := u t)).comp_hasDerivAt t h
  simpa [Function.comp_def] using this

theorem MDeriv.mul {A : ℝ → Matrix l m ℂ} {A' : Matrix l m ℂ} {B : ℝ → Matrix m n ℂ} {B' : Matrix m n ℂ} {t : ℝ} (hA : MDeriv A A' t) (hB : MDeriv B B' t) :
    MDeriv (fun t => A t * B t) (A' * B t + A t * B') t := by
  intro i j
  simp only [Matrix.mul_apply, Matrix.add_apply]
  refine (HasDerivAt.fun_sum fun k _ => (hA i k).mul (hB k j)).congr_deriv ?_
  rw [Finset.sum_add_distrib]

theorem MDeriv.dagger {A : ℝ → Matrix l m ℂ} {A' : Matrix l m ℂ} {t : ℝ} (hA : MDeriv A A' t) : MDeriv (fun t => (A t)ᴴ) A'ᴴ t := by
  intro i j
  simp only [conjTranspose_apply, Complex.star_def]
  exact conj_deriv (hA j i)

theorem MDeriv.const (A : Matrix l m ℂ) (t : ℝ) : MDeriv (fun _ => A) 0 t := fun i j => by
  simpa using hasDerivAt_const t (A i j)

theorem MDeriv.line (A D : Matrix l m ℂ) (t : ℝ) : MDeriv (fun t => A + (t : ℂ) • D) D t := fun i j => by
  simp only [Matrix.add_apply, Matrix.smul_apply, smul_eq_mul]
  have := ((ofReal_deriv (hasDerivAt_id t)).mul_const (D i j)).const_add (A i j)
  simpa using this

theorem MDeriv.re_trace {A : ℝ → Matrix n n ℂ} {A' : Matrix n n ℂ} {t : ℝ} (hA : MDeriv A A' t) : HasDerivAt (fun t => (A t).trace.re) A'.trace.re t := by
  refine re_deriv ?_
  unfold Matrix.trace
  exact HasDerivAt.fun_sum fun i _ => hA i i

/-- Lower triangular with positive diagonal. -/
structure Lower {n : ℕ} (L : Matrix (Fin n) (Fin n) ℂ) : Prop where
  tri : ∀ i j, i < j → L i j = 0
  pos : ∀ j, 0 < (L j j).re
  real : ∀ j, (L j j).im = 0

theorem chol_deriv {n : ℕ} (A L : ℝ → Matrix (Fin n) (Fin n) ℂ) (hL : ∀ t, Lower (L t)) (hA : ∀ t, L t * (L t)ᴴ = A t)
    (h0 : A 0 = 1) (hd : MDeriv A 0 0) : L 0 = 1 ∧ MDeriv L 0 0 := by
  have hent : ∀ t i j, A t i j = ∑ k ∈ Finset.univ.filter (· < j), L t i k * conj (L t j k) + L t i j * conj (L t j j) := by
    intro t i j
    rw [← hA t, Matrix.mul_apply]
    simp only [conjTranspose_apply, Complex.star_def]
    rw [← Finset.sum_filter_add_sum_filter_not Finset.univ (· < j)]
    congr 1
    rw [Finset.sum_eq_single_of_mem j]
    · simp
    · intro k hk hkj
      have : j < k := by
        rcases lt_trichotomy k j with h | h | h
        · simp at hk; exact absurd h (not_lt.2 hk)
        · exact absurd h hkj
        · exact h
      rw [(hL t).tri j k this]; simp
  have hdiag : ∀ t j, L t j j = ((L t j j).re : ℂ) := fun t j => Complex.ext rfl (by simp [(hL t).real j])
  have key : ∀ k : ℕ, ∀ j : Fin n, j.val = k → ∀ i, L 0 i j = (1 : Matrix (Fin n) (Fin n) ℂ) i j ∧ HasDerivAt (fun t => L t i j) 0 0 := by
    intro k
    induction k using Nat.strong_induction_on with
    | _ k ih =>
      intro j hj
      have ih' : ∀ k : Fin n, k < j → ∀ i, L 0 i k = (1 : Matrix (Fin n) (Fin n) ℂ) i k ∧ HasDerivAt (fun t => L t i k) 0 0 :=
        fun k hk i => ih k.val (by rw [← hj]; exact hk) k rfl i
      have hsum : ∀ i, j ≤ i → (∑ k ∈ Finset.univ.filter (· < j), L 0 i k * conj (L 0 j k) = 0)
          ∧ HasDerivAt (fun t => ∑ k ∈ Finset.univ.filter (· < j), L t i k * conj (L t j k)) 0 0 := by
        intro i hi
        constructor
        · refine Finset.sum_eq_zero fun k hk => ?_
          have hk' : k < j := by simpa using hk
          rw [(ih' k hk' j).1, one_apply_ne (ne_of_gt hk')]; simp
        · refine (HasDerivAt.fun_sum (A' := fun _ => (0 : ℂ)) fun k hk => ?_).congr_deriv (by simp)
          have hk' : k < j := by simpa using hk
          exact ((ih' k hk' i).2.mul (conj_deriv (ih' k hk' j).2)).congr_deriv (by simp)
      have hjj : L 0 j j = 1 ∧ HasDerivAt (fun t => L t j j) 0 0 := by
        have hr : ∀ t, (L t j j).re = Real.sqrt ((A t j j - ∑ k ∈ Finset.univ.filter (· < j), L t j k * conj (L t j k)).re) := by
          intro t
          have h1 : A t j j - ∑ k ∈ Finset.univ.filter (· < j), L t j k * conj (L t j k) = (((L t j j).re ^ 2 : ℝ) : ℂ) := by
            rw [hent t j j, hdiag t j]
            simp
            ring
          rw [h1, Complex.ofReal_re, Real.sqrt_sq ((hL t).pos j).le]
        have hs := hsum j le_rfl
        have hval : (A 0 j j - ∑ k ∈ Finset.univ.filter (· < j), L 0 j k * conj (L 0 j k)).re = 1 := by
          rw [hs.1, h0]; simp
        have hre : (L 0 j j).re = 1 := by rw [hr 0, hval, Real.sqrt_one]
        refine ⟨by rw [hdiag 0 j, hre]; simp, ?_⟩
        have hin := re_deriv ((hd j j).sub hs.2)
        have hsq := hin.sqrt (by simp only [Pi.sub_apply]; rw [hval]; norm_num)
        have e : (fun t => L t j j) = fun t => ((Real.sqrt ((A t j j - ∑ k ∈ Finset.univ.filter (· < j), L t j k * conj (L t j k)).re) : ℝ) : ℂ) := by
          funext t; rw [hdiag t j, hr t]
        rw [e]
        refine (ofReal_deriv hsq).congr_deriv ?_
        simp
      intro i
      rcases lt_trichotomy i j with hij | hij | hij
      · have e : (fun t => L t i j) = fun _ => 0 := by funext t; exact (hL t).tri i j hij
        rw [e]
        exact ⟨by rw [(hL 0).tri i j hij, one_apply_ne (ne_of_lt hij)], hasDerivAt_const 0 0⟩
      · subst hij
        exact ⟨by rw [hjj.1, one_apply_eq], hjj.2⟩
      · have hs := hsum i hij.le
        have hne : ∀ t, conj (L t j j) ≠ 0 := fun t h => by
          have := (hL t).pos j
          have h' : L t j j = 0 := by simpa using h
          rw [h'] at this; simp at this
        have e : ∀ t, L t i j = (A t i j - ∑ k ∈ Finset.univ.filter (· < j), L t i k * conj (L t j k)) / conj (L t j j) := by
          intro t
          rw [eq_div_iff (hne t), hent t i j]; ring
        constructor
        · rw [e 0, hs.1, h0, one_apply_ne (ne_of_gt hij)]; simp
        · simp only [e]
          have := ((hd i j).sub hs.2).div (conj_deriv hjj.2) (hne 0)
          refine this.congr_deriv ?_
          simp
  constructor
  · ext i j; exact (key j.val j rfl i).1
  · intro i j; exact (key j.val j rfl i).2

/-- Inverse of a matrix that is stationary at the identity. -/
theorem inv_deriv {n : ℕ} (L : ℝ → Matrix (Fin n) (Fin n) ℂ) (h0 : L 0 = 1) (hd : MDeriv L 0 0) (hi : ∀ t, L t * (L t)⁻¹ = 1) :
    MDeriv (fun t => (L t)⁻¹) 0 0 := by
  have hLt : ContinuousAt L 0 := tendsto_matrix _ _ _ fun i j => (hd i j).continuousAt.tendsto
  have hinv : Tendsto (fun t => (L t)⁻¹) (𝓝 0) (𝓝 1) := by
    have h1 : ContinuousAt (fun t => (L t).det) 0 := (Continuous.matrix_det continuous_id).continuousAt.comp hLt
    have h2 : ContinuousAt (fun t => (L t).adjugate) 0 := (Continuous.matrix_adjugate continuous_id).continuousAt.comp hLt
    have h3 : ContinuousAt (fun t => ((L t).det)⁻¹ • (L t).adjugate) 0 := (h1.inv₀ (by rw [h0]; simp)).smul h2
    have h4 := h3.tendsto
    rw [h0] at h4
    simp only [det_one, inv_one, adjugate_one, one_smul] at h4
    refine h4.congr fun t => ?_
    rw [Matrix.inv_def, Ring.inverse_eq_inv]
  intro i j
  have e : (fun t => (L t)⁻¹ i j) = fun t => (1 : Matrix (Fin n) (Fin n) ℂ) i j - ∑ k, (L t - 1) i k * (L t)⁻¹ k j := by
    funext t
    rw [← Matrix.mul_apply, Matrix.sub_mul, hi t, Matrix.one_mul, Matrix.sub_apply]; ring
  rw [e]
  have hterm : ∀ k ∈ Finset.univ, HasDerivAt (fun t => (L t - 1) i k * (L t)⁻¹ k j) 0 0 := by
    intro k _
    have hl : Tendsto (fun t => (L t)⁻¹ k j) (𝓝 0) (𝓝 ((1 : Matrix (Fin n) (Fin n) ℂ) k j)) :=
      ((continuous_apply_apply k j : Continuous fun f : Fin n → Fin n → ℂ => f k j).tendsto _).comp hinv
    have := mul_deriv_zero _ (fun t => (L t - 1) i k) _ 0 0 hl ((hd i k).sub_const ((1 : Matrix (Fin n) (Fin n) ℂ) i k)) (by rw [h0]; simp)
    exact this.congr_deriv (by simp)
  refine ((HasDerivAt.fun_sum hterm).const_sub _).congr_deriv ?_
  simp

end Jdftx.MatFn
