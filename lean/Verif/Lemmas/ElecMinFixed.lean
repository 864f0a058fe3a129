import Verif.Lemmas.ElecMinLine

/-! # Lemmas on the electronic minimiser with constant fillings -/
set_option linter.unusedSectionVars false
namespace Jdftx.ElecMin
open Matrix Jdftx.MatFn ComplexConjugate
open scoped ComplexOrder
noncomputable section

variable {Q B : Type} [Fintype Q] [Fintype B] {n : ℕ}

theorem cis_deriv {l : Lapack n} (hl : l.OK) {D : Mat n} (hD : D.IsHermitian) : MDeriv (fun α : ℝ => cis l ((α : ℂ) • D)) (Complex.I • D) 0 := by
  have hherm : ∀ α : ℝ, ((α : ℂ) • D).IsHermitian := fun α => by
    unfold Matrix.IsHermitian
    rw [conjTranspose_smul, hD.eq]; simp
  exact MDeriv_of (K := fun α : ℝ => (α : ℂ) • D) (V := fun α : ℝ => (l.eig ((α : ℂ) • D)).1) (κ := fun α : ℝ => (l.eig ((α : ℂ) • D)).2)
    (fun α => hl.eig _ (hherm α)) (fun _ => rfl)

/-- The auxiliary part of the slope for constant fillings, without the weight. -/
theorem slope_F {Hs : Mat n} (hH : Hs.IsHermitian) (F : Fin n → ℝ) (D : Mat n) :
    (∑ a, ∑ j, conj (daggerSymm (Complex.I • (diagonal (fun j => (F j : ℂ)) * Hs - Hs * diagonal (fun j => (F j : ℂ)))) a j) * D a j).re
      = (Hs * (Complex.I • D * diagonal (fun j => (F j : ℂ)) + diagonal (fun j => (F j : ℂ)) * (Complex.I • D)ᴴ)).trace.re
        + (Hs * (diagonal (fun j => (F j : ℂ)) * (Complex.I • Dᴴ - Complex.I • D))).trace.re := by
  set Φ : Mat n := diagonal (fun j => (F j : ℂ)) with hΦ
  have hΦd : Φᴴ = Φ := by rw [hΦ, diagonal_conjTranspose]; congr 1; funext j; simp
  rw [dot_trace]
  have hG : (daggerSymm (Complex.I • (Φ * Hs - Hs * Φ)))ᴴ = Complex.I • (Φ * Hs - Hs * Φ) := by
    unfold daggerSymm
    simp only [conjTranspose_smul, conjTranspose_add, conjTranspose_sub, conjTranspose_mul, hΦd, hH.eq]
    ext a b
    simp only [Matrix.smul_apply, Matrix.add_apply, Matrix.sub_apply, smul_eq_mul, Complex.star_def, Complex.conj_I, map_neg]
    have : (conj (0.5 : ℂ)) = 0.5 := by
      rw [show (0.5 : ℂ) = ((0.5 : ℝ) : ℂ) by push_cast; rfl, Complex.conj_ofReal]
    rw [this]; ring
  rw [hG]
  have e1 : (Complex.I • (Φ * Hs - Hs * Φ) * D).trace = Complex.I * ((Φ * (Hs * D)).trace - (Hs * (Φ * D)).trace) := by
    rw [Matrix.smul_mul, trace_smul, smul_eq_mul, Matrix.sub_mul, trace_sub, Matrix.mul_assoc, Matrix.mul_assoc]
  have e2 : (Hs * (Complex.I • D * Φ + Φ * (Complex.I • D)ᴴ)).trace = Complex.I * (Hs * (D * Φ)).trace - Complex.I * (Hs * (Φ * Dᴴ)).trace := by
    rw [conjTranspose_smul, Matrix.mul_add, trace_add, Matrix.smul_mul, Matrix.mul_smul, trace_smul, Matrix.mul_smul, Matrix.mul_smul, trace_smul]
    simp only [smul_eq_mul, Complex.star_def, Complex.conj_I]
    ring
  have e3 : (Hs * (Φ * (Complex.I • Dᴴ - Complex.I • D))).trace = Complex.I * (Hs * (Φ * Dᴴ)).trace - Complex.I * (Hs * (Φ * D)).trace := by
    rw [Matrix.mul_sub, Matrix.mul_sub, trace_sub, Matrix.mul_smul, Matrix.mul_smul, trace_smul, Matrix.mul_smul, Matrix.mul_smul, trace_smul]
    simp only [smul_eq_mul]
  have e4 : (Φ * (Hs * D)).trace = (Hs * (D * Φ)).trace := by
    rw [Matrix.trace_mul_comm, Matrix.mul_assoc]
  rw [e1, e2, e3, e4, ← Complex.add_re]
  congr 1
  ring

/-- Derivative of the energy along a step with constant fillings. -/
theorem fixed_deriv {i : Info Q n} (hh : i.hsub = false) {l : Lapack n} (hl : l.OK) (f : Search Q n) {p : Phys Q B} (hp : p.OK i.w) {s : Q → QState B n} (ho : Orthonormal p s)
    (hu : Unitary s) {dir : Grad Q B n} (ht : Tangent p s dir) :
    ∃ s' : ℝ → Q → QState B n, (∀ α, step i l p s dir α = some (s' α)) ∧ HasDerivAt (fun α => freeEnergy i f p (s' α))
      (∑ q, ((∑ b, ∑ j, conj ((grad i f p s).C q b j) * dir.C q b j).re * 2 + i.w q * (∑ a, ∑ j, conj ((grad i f p s).Haux q a j) * dir.Haux q a j).re)) 0 := by
  have hY : ∀ q, ((s q).C)ᴴ * (p.O q * (dir.C q * (s q).rotPrevC)) = 0 := fun q => by
    rw [← Matrix.mul_assoc (p.O q), ← Matrix.mul_assoc, (ht q).1, Matrix.zero_mul]
  have hS := fun q => ortho_path hl (hp.overlap q) (ho q) (hY q)
  choose S hS hS0 hSd using hS
  have hfill : ∀ eps q j, fill i f eps q j = i.F0 q j := fun eps q j => by unfold fill; rw [hh]; rfl
  have hfe : ∀ s, freeEnergy i f p s = p.E (density i f s) := fun s => by unfold freeEnergy; rw [hh]; rfl
  have hherm := fun q => (ht q).2
  let rot : Q → ℝ → Mat n := fun q α => if i.scalar then 1 else cis l ((α : ℂ) • dir.Haux q)
  let rot' : Q → Mat n := fun q => if i.scalar then 0 else Complex.I • dir.Haux q
  have hr0 : ∀ q, rot q 0 = 1 := by
    intro q
    simp only [rot]
    split_ifs
    · rfl
    · simp [cis_zero hl]
  have hrd : ∀ q, MDeriv (rot q) (rot' q) 0 := by
    intro q
    simp only [rot, rot']
    split_ifs
    · exact MDeriv.const 1 0
    · exact cis_deriv hl (hherm q)
  have hstep : ∀ (α : ℝ) q, ∃ s', stepQ i l (p.O q) (dir.C q) (dir.Haux q) α (s q) = some s' ∧ s'.C = ((s q).C + (α : ℂ) • (dir.C q * (s q).rotPrevC)) * (S q α * rot q α) := by
    intro α q
    unfold stepQ
    simp only [hS q α, Option.map_some, hh, Option.some.injEq, exists_eq_left']
    cases hsc : i.scalar <;> simp [rot, hsc]
  choose s' hs' hC' using hstep
  refine ⟨s', fun α => step_some.2 (hs' α), ?_⟩
  simp only [hfe]
  let Φ : Q → Mat n := fun q => diagonal (fun j => (i.F0 q j : ℂ))
  have hdens : ∀ α q, density i f (s' α) q = ((s q).C + (α : ℂ) • (dir.C q * (s q).rotPrevC)) * S q α * (rot q α * Φ q * (rot q α)ᴴ) * (S q α)ᴴ
      * ((s q).C + (α : ℂ) • (dir.C q * (s q).rotPrevC))ᴴ := by
    intro α q
    unfold density
    rw [hC']
    simp only [hfill, Φ, conjTranspose_mul, Matrix.mul_assoc]
  have hM0 : ∀ q, (fun α => rot q α * Φ q * (rot q α)ᴴ) 0 = Φ q := fun q => by simp [hr0]
  have hMd : ∀ q, MDeriv (fun α => rot q α * Φ q * (rot q α)ᴴ) (rot' q * Φ q + Φ q * (rot' q)ᴴ) 0 := by
    intro q
    have h := ((hrd q).mul (MDeriv.const (Φ q) 0)).mul (hrd q).dagger
    have e : (rot' q * Φ q + rot q 0 * (0 : Mat n)) * (rot q 0)ᴴ + rot q 0 * Φ q * (rot' q)ᴴ = rot' q * Φ q + Φ q * (rot' q)ᴴ := by simp [hr0]
    rw [e] at h
    exact h
  have hE0 := hp.deriv (fun α => density i f (s' α)) (fun q => dir.C q * (s q).rotPrevC * Φ q * ((s q).C)ᴴ + (s q).C * (rot' q * Φ q + Φ q * (rot' q)ᴴ) * ((s q).C)ᴴ
      + (s q).C * Φ q * (dir.C q * (s q).rotPrevC)ᴴ) (fun α q => density_hermitian i f (s' α) q) (fun q => by
        have := density_deriv (C := (s q).C) (Y := dir.C q * (s q).rotPrevC) (hS0 q) (hSd q) (hM0 q) (hMd q)
        simp only [hdens]
        exact this)
  have hd0 : density i f (s' 0) = density i f s := by
    funext q
    rw [hdens, hS0, hr0]
    simp [density, hfill, Φ]
  refine hE0.congr_deriv ?_
  rw [hd0]
  refine Finset.sum_congr rfl fun q _ => ?_
  have hHh := hp.hermitian _ (density_hermitian i f s) q
  have h1 := energy_trace hHh (hp.overlap q).1 (hY q) (i.F0 q) (rot' q * Φ q + Φ q * (rot' q)ᴴ)
  have h2 := slope_C (i := i) (f := f) (p := p) hu dir q
  rw [h1, h2]
  simp only [hfill]
  have h3 : (∑ a, ∑ j, conj ((grad i f p s).Haux q a j) * dir.Haux q a j).re = (Hsub i f p s q * (rot' q * Φ q + Φ q * (rot' q)ᴴ)).trace.re := by
    cases hsc : i.scalar with
    | true => simp [grad, hh, hsc, rot']
    | false =>
      have := slope_F (hsub_hermitian (i := i) (f := f) hp s q) (i.F0 q) (dir.Haux q)
      rw [(hherm q).eq] at this
      simp only [grad, hh, hsc, rot', hfill, Φ] at this ⊢
      simp only [Bool.false_eq_true, if_false, Bool.not_false, if_true]
      rw [this]
      simp
  rw [h3]
  unfold Hsub
  ring

end
end Jdftx.ElecMin
