import Verif.Lemmas.DavidsonStep

/-! # Lemmas on the progress of the Davidson band solver -/
set_option linter.unusedSectionVars false
namespace Jdftx.Davidson
open Matrix Jdftx.ElecMin Jdftx.MatFn ComplexConjugate
open scoped ComplexOrder
noncomputable section

variable {B P : Type} [Fintype B] {n m k : ℕ}

/-- Sesquilinear form of an operator. -/
def form (A : Matrix B B ℂ) (x y : B → ℂ) : ℂ := star x ⬝ᵥ (A *ᵥ y)

theorem form_add_left (A : Matrix B B ℂ) (x y z : B → ℂ) : form A (x + y) z = form A x z + form A y z := by unfold form; rw [star_add, add_dotProduct]
theorem form_add_right (A : Matrix B B ℂ) (x y z : B → ℂ) : form A x (y + z) = form A x y + form A x z := by unfold form; rw [mulVec_add, dotProduct_add]
theorem form_smul_left (A : Matrix B B ℂ) (a : ℝ) (x y : B → ℂ) : form A ((a : ℂ) • x) y = a * form A x y := by
  unfold form; rw [star_smul, smul_dotProduct]; simp
theorem form_smul_right (A : Matrix B B ℂ) (a : ℝ) (x y : B → ℂ) : form A x ((a : ℂ) • y) = a * form A x y := by
  unfold form; rw [mulVec_smul, dotProduct_smul, smul_eq_mul]
theorem form_conj {A : Matrix B B ℂ} (h : A.IsHermitian) (x y : B → ℂ) : conj (form A x y) = form A y x := by
  unfold form
  rw [← Complex.star_def, star_dotProduct, star_star, star_mulVec, h.eq, ← dotProduct_mulVec]

theorem gram_apply (A : Matrix B B ℂ) (F : Matrix B (Fin k) ℂ) (i j : Fin k) : (Fᴴ * (A * F)) i j = form A (fun a => F a i) (fun a => F a j) := by
  unfold form
  simp [mul_apply, dotProduct, mulVec]

/-- Within one of the columns, a vector. -/
def VWithin (w : B → ℂ) (Q : Matrix B (Fin n) ℂ) : Prop := ∃ z, w = Q *ᵥ z

theorem within_iff (C : Matrix B (Fin k) ℂ) (Q : Matrix B (Fin n) ℂ) : Within C Q ↔ ∀ j, VWithin (fun a => C a j) Q := by
  constructor
  · rintro ⟨Y, rfl⟩ j
    exact ⟨fun i => Y i j, by funext a; simp [mul_apply, mulVec, dotProduct]⟩
  · intro h
    choose z hz using h
    refine ⟨Matrix.of fun i j => z j i, ?_⟩
    ext a j
    have := congrFun (hz j) a
    simpa [mul_apply, mulVec, dotProduct] using this

theorem VWithin.add {v w : B → ℂ} {Q : Matrix B (Fin n) ℂ} (h : VWithin v Q) (h' : VWithin w Q) : VWithin (v + w) Q := by
  obtain ⟨a, rfl⟩ := h; obtain ⟨b, rfl⟩ := h'
  exact ⟨a + b, (mulVec_add _ _ _).symm⟩
theorem VWithin.smul {v : B → ℂ} {Q : Matrix B (Fin n) ℂ} (h : VWithin v Q) (c : ℂ) : VWithin (c • v) Q := by
  obtain ⟨a, rfl⟩ := h
  exact ⟨c • a, (mulVec_smul _ _ _).symm⟩

/-- An expansion that is not orthogonal to the residual of a band lowers the sum of the energies. -/
theorem sum_decreases {S : Sys B P} (hS : S.OK) {Q : Matrix B (Fin n) ℂ} {lam : Fin n → ℝ} (hQ : Ritz S Q lam) {C : Matrix B (Fin k) ℂ} {e : Fin k → ℝ} (hC : Ritz S C e) (hw : Within C Q) (hk : k ≤ n)
    (w : B → ℂ) (hwQ : VWithin w Q) (b : Fin k) (hd : 0 < (form S.H w (fun a => C a b) - e b * form S.O w (fun a => C a b)).re) :
    ∑ j : Fin k, lam (Fin.castLE hk j) < ∑ j, e j := by
  have hO := hS.overlap.1
  have cO : ∀ i j, form S.O (fun a => C a i) (fun a => C a j) = if i = j then 1 else 0 := fun i j => by rw [← gram_apply, hC.ortho, one_apply]
  have cH : ∀ i j, form S.H (fun a => C a i) (fun a => C a j) = if i = j then (e i : ℂ) else 0 := fun i j => by rw [← gram_apply, hC.diag, diagonal_apply]
  have formC : ∀ (A : Matrix B B ℂ) (a : Fin k → ℂ) (y : B → ℂ), form A (C *ᵥ a) y = ∑ i, conj (a i) * form A (fun r => C r i) y := by
    intro A a y
    unfold form
    rw [star_mulVec, ← dotProduct_mulVec]
    simp only [dotProduct, mulVec, Pi.star_apply, Complex.star_def, conjTranspose_apply]
  set a : Fin k → ℂ := fun i => form S.O (fun r => C r i) w with ha
  set w' : B → ℂ := w + (-1 : ℂ) • (C *ᵥ a) with hw'
  have hw'e : w' = w + ((-1 : ℝ) : ℂ) • (C *ᵥ a) := by rw [hw']; norm_num
  have orth : ∀ j, form S.O w' (fun r => C r j) = 0 := by
    intro j
    rw [hw'e, form_add_left, form_smul_left, formC]
    simp only [cO, mul_ite, mul_one, mul_zero, Finset.sum_ite_eq', Finset.mem_univ, if_true]
    rw [ha]
    simp only
    rw [form_conj hO]
    push_cast
    ring
  have orth' : ∀ j, form S.O (fun r => C r j) w' = 0 := fun j => by rw [← form_conj hO, orth, map_zero]
  have hdH : form S.H w' (fun r => C r b) = form S.H w (fun r => C r b) - e b * form S.O w (fun r => C r b) := by
    rw [hw'e, form_add_left, form_smul_left, formC]
    simp only [cH, mul_ite, mul_zero, Finset.sum_ite_eq', Finset.mem_univ, if_true]
    rw [ha]
    simp only
    rw [form_conj hO]
    push_cast
    ring
  rw [← hdH] at hd
  have hdH' : form S.H (fun r => C r b) w' = conj (form S.H w' (fun r => C r b)) := (form_conj hS.herm _ _).symm
  set d := (form S.H w' (fun r => C r b)).re with hdd
  set mm := (form S.O w' w').re with hmm
  set h := (form S.H w' w').re with hh
  have hm0 : 0 ≤ mm := (Complex.nonneg_iff.1 (hS.overlap.dotProduct_mulVec_nonneg w')).1
  have hreal : form S.O w' w' = (mm : ℂ) := by
    have := form_conj hO w' w'
    exact (Complex.conj_eq_iff_re.1 this).symm
  by_contra hcon
  rw [not_lt] at hcon
  have key : ∀ t : ℝ, 0 ≤ 2 * t * d + t ^ 2 * (h - e b * mm) := by
    intro t
    have hD : 0 < 1 + t ^ 2 * mm := by positivity
    set γ : ℝ := 1 / Real.sqrt (1 + t ^ 2 * mm) with hγ
    have hγ2 : γ * γ * (1 + t ^ 2 * mm) = 1 := by
      rw [hγ, div_mul_div_comm, Real.mul_self_sqrt hD.le]
      field_simp
    set f : B → ℂ := (γ : ℂ) • ((fun r => C r b) + (t : ℂ) • w') with hf
    let F : Matrix B (Fin k) ℂ := Matrix.of fun r j => if j = b then f r else C r j
    have Fb : (fun r => F r b) = f := by funext r; simp [F]
    have Fj : ∀ j, j ≠ b → (fun r => F r j) = fun r => C r j := by intro j hj; funext r; simp [F, hj]
    have quad : ∀ A : Matrix B B ℂ, form A f f = γ * γ * (form A (fun r => C r b) (fun r => C r b) + t * form A (fun r => C r b) w' + t * form A w' (fun r => C r b) + t * t * form A w' w') := by
      intro A
      rw [hf, form_smul_left, form_smul_right, form_add_left, form_add_right, form_add_right, form_smul_right, form_smul_left, form_smul_left, form_smul_right]
      ring
    have FO : Fᴴ * (S.O * F) = 1 := by
      ext i j
      rw [gram_apply, one_apply]
      by_cases hi : i = b <;> by_cases hj : j = b
      · subst hi; subst hj
        rw [Fb, quad, cO, orth, orth', hreal, if_pos rfl]
        have hc := congrArg (fun x : ℝ => (x : ℂ)) hγ2
        push_cast at hc
        linear_combination hc
      · subst hi
        rw [Fb, Fj j hj, hf, form_smul_left, form_add_left, form_smul_left, orth, cO, if_neg (Ne.symm hj)]
        simp
      · subst hj
        rw [Fb, Fj i hi, hf, form_smul_right, form_add_right, form_smul_right, orth', cO, if_neg hi]
        simp
      · rw [Fj i hi, Fj j hj, cO]
    have hFw : Within F Q := by
      rw [within_iff] at hw ⊢
      intro j
      by_cases hj : j = b
      · subst hj
        rw [Fb, hf]
        refine VWithin.smul (VWithin.add (hw j) (VWithin.smul ?_ _)) _
        rw [hw']
        refine VWithin.add hwQ (VWithin.smul ?_ _)
        obtain ⟨Y, hY⟩ := (within_iff C Q).2 hw
        exact ⟨Y *ᵥ a, by rw [hY, mulVec_mulVec]⟩
      · rw [Fj j hj]; exact hw j
    have hkf := kyFan hS.herm hQ FO hFw hk
    have hFb : ((Fᴴ * (S.H * F)) b b).re = γ * γ * (e b + 2 * t * d + t ^ 2 * h) := by
      rw [gram_apply, Fb, quad, cH, if_pos rfl, hdH']
      simp only [Complex.mul_re, Complex.add_re, Complex.ofReal_re, Complex.ofReal_im, Complex.conj_re, Complex.mul_im, Complex.add_im, Complex.conj_im]
      rw [← hdd, ← hh]
      ring
    have hFj : ∀ j, j ≠ b → ((Fᴴ * (S.H * F)) j j).re = e j := by
      intro j hj
      rw [gram_apply, Fj j hj, cH, if_pos rfl, Complex.ofReal_re]
    have hle := hcon.trans hkf
    rw [← Finset.add_sum_erase _ _ (Finset.mem_univ b), ← Finset.add_sum_erase _ (fun j => ((Fᴴ * (S.H * F)) j j).re) (Finset.mem_univ b), hFb,
      Finset.sum_congr rfl fun j hj => hFj j (Finset.ne_of_mem_erase hj)] at hle
    have h1 : e b ≤ γ * γ * (e b + 2 * t * d + t ^ 2 * h) := by linarith
    have h2 := mul_le_mul_of_nonneg_right h1 hD.le
    have h3 : γ * γ * (e b + 2 * t * d + t ^ 2 * h) * (1 + t ^ 2 * mm) = e b + 2 * t * d + t ^ 2 * h := by
      rw [mul_right_comm, hγ2, one_mul]
    rw [h3] at h2
    linarith
  have h0 := key (-d / (|h - e b * mm| + 1))
  set K := h - e b * mm
  have hK : 0 < |K| + 1 := by positivity
  have hx : 2 * (-d / (|K| + 1)) * d + (-d / (|K| + 1)) ^ 2 * K = d ^ 2 / (|K| + 1) ^ 2 * (K - 2 * (|K| + 1)) := by
    field_simp
    ring
  rw [hx] at h0
  have hneg : K - 2 * (|K| + 1) < 0 := by have := le_abs_self K; have := abs_nonneg K; linarith
  have : d ^ 2 / (|K| + 1) ^ 2 * (K - 2 * (|K| + 1)) < 0 := mul_neg_of_pos_of_neg (by positivity) hneg
  linarith

end
end Jdftx.Davidson
