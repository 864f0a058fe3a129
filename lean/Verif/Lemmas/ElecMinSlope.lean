import Verif.Lemmas.ElecMin

/-! # Lemmas on the electronic minimiser: chemical potentials along a step -/
set_option linter.unusedSectionVars false
namespace Jdftx.ElecMin
open Matrix Jdftx.MatFn Jdftx.Smear Filter Topology ComplexConjugate
open scoped ComplexOrder
noncomputable section

variable {Q B : Type} [Fintype Q] [Fintype B] {n : ℕ}

theorem smearPrime_neg {k : Kind} (hk : k = .fermi ∨ k = .gauss) {σ : ℝ} (hσ : 0 < σ) (mu e : ℝ) : smearPrime k σ mu e < 0 := by
  rcases hk with rfl | rfl
  · unfold smearPrime
    have := Real.cosh_pos (xOf σ mu e)
    simp only
    apply div_neg_of_neg_of_pos (by norm_num) (by positivity)
  · unfold smearPrime
    simp only
    have := Real.sqrt_pos.2 Real.pi_pos
    apply div_neg_of_neg_of_pos (by have := Real.exp_pos (-xOf σ mu e * xOf σ mu e); linarith) (by positivity)

theorem smear_cont (k : Kind) {σ : ℝ} (hσ : 0 < σ) (mu : ℝ) : Continuous (fun x => smear k σ mu x) :=
  continuous_iff_continuousAt.2 fun x => (C65_derivative k σ mu x hσ.ne').continuousAt

/-- Rate of the common chemical potential of a group of states whose number of electrons is fixed. -/
theorem group_rate {i : Info Q n} (hk : i.kind = .fermi ∨ i.kind = .gauss) (hσ : 0 < i.σ) (hw : ∀ q, 0 < i.w q) (hn : 0 < n) {f : Search Q n}
    {s : Q → QState B n} {dir : Grad Q B n} {V : Q → ℝ → Mat n} {ε : Q → ℝ → Fin n → ℝ}
    (hE : ∀ q (α : ℝ), Eig (diagonal (fun j => ((s q).eps j : ℂ)) + (α : ℂ) • auxDir s dir q) (V q α) (ε q α))
    (P : Finset Q) (hP : P.Nonempty) (δ : ℝ → ℝ)
    (hfix : ∀ α, ∑ q ∈ P, i.w q * ∑ j, smear i.kind i.σ (muEff i (mults i f (fun q => (s q).eps)) q + δ α) (ε q α j)
      = ∑ q ∈ P, i.w q * ∑ j, smear i.kind i.σ (muEff i (mults i f (fun q => (s q).eps)) q) ((s q).eps j)) :
    δ 0 = 0 ∧ HasDerivAt δ ((∑ q ∈ P, dirQ i f s dir q) / ∑ q ∈ P, denQ i f s q) 0 ∧ ∑ q ∈ P, denQ i f s q ≠ 0 := by
  let mu0 : Q → ℝ := fun q => muEff i (mults i f (fun q => (s q).eps)) q
  let f0 : ℝ → ℝ := fun x => smear i.kind i.σ 0 x
  have hanti : StrictAnti f0 := (C65_bounds i.kind hk i.σ 0 hσ).1
  have hcont : Continuous f0 := smear_cont i.kind hσ 0
  have hne : Nonempty (Fin n) := ⟨⟨0, hn⟩⟩
  have hneg : ∑ q ∈ P, denQ i f s q < 0 := by
    refine Finset.sum_neg (fun q _ => ?_) hP
    unfold denQ
    exact mul_neg_of_pos_of_neg (hw q) (Finset.sum_neg (fun j _ => smearPrime_neg hk hσ _ _) Finset.univ_nonempty)
  have hsh : ∀ q x e, smear i.kind i.σ (mu0 q + x) e = f0 (e - mu0 q - x) := fun q x e => by
    rw [smear_shift]; simp only [f0]; congr 1; ring
  have hfix' : ∀ α, ∑ q ∈ P, i.w q * ∑ j, f0 (ε q α j - mu0 q - δ α) = ∑ q ∈ P, i.w q * ∑ j, f0 ((s q).eps j - mu0 q) := by
    intro α
    have := hfix α
    simp only [show ∀ q, muEff i (mults i f (fun q => (s q).eps)) q = mu0 q from fun _ => rfl] at this
    simp only [hsh] at this
    rw [this]
    refine Finset.sum_congr rfl fun q _ => ?_
    congr 1
    exact Finset.sum_congr rfl fun j _ => smear_shift _ _ _ _
  have hz : δ 0 = 0 := by
    have h0 := hfix' 0
    have h1 : ∀ q, ∑ j, f0 (ε q 0 j - mu0 q - δ 0) = ∑ j, f0 ((s q).eps j - mu0 q - δ 0) := by
      intro q
      have he := hE q 0
      simp only [Complex.ofReal_zero, zero_smul, add_zero] at he
      exact sum_start he (fun x => f0 (x - mu0 q - δ 0))
    simp only [h1] at h0
    rcases lt_trichotomy (δ 0) 0 with h | h | h
    · exfalso
      have : ∑ q ∈ P, i.w q * ∑ j, f0 ((s q).eps j - mu0 q - δ 0) < ∑ q ∈ P, i.w q * ∑ j, f0 ((s q).eps j - mu0 q) :=
        Finset.sum_lt_sum_of_nonempty hP fun q _ => mul_lt_mul_of_pos_left
          (Finset.sum_lt_sum_of_nonempty Finset.univ_nonempty fun j _ => hanti (by linarith)) (hw q)
      linarith
    · exact h
    · exfalso
      have : ∑ q ∈ P, i.w q * ∑ j, f0 ((s q).eps j - mu0 q) < ∑ q ∈ P, i.w q * ∑ j, f0 ((s q).eps j - mu0 q - δ 0) :=
        Finset.sum_lt_sum_of_nonempty hP fun q _ => mul_lt_mul_of_pos_left
          (Finset.sum_lt_sum_of_nonempty Finset.univ_nonempty fun j _ => hanti (by linarith)) (hw q)
      linarith
  have hG : Group P i.w (fun q j => (s q).eps j - mu0 q) (fun q => auxDir s dir q) V (fun q α j => ε q α j - mu0 q) f0 δ :=
    { eig := fun q _ t => by
        have := eig_shift (hE q t) (mu0 q)
        have e : diagonal (fun j => ((s q).eps j : ℂ)) + (t : ℂ) • auxDir s dir q - (mu0 q : ℂ) • (1 : Mat n)
            = diagonal (fun j => (((s q).eps j - mu0 q : ℝ) : ℂ)) + (t : ℂ) • auxDir s dir q := by
          ext a b
          simp only [Matrix.sub_apply, Matrix.add_apply, Matrix.smul_apply, smul_eq_mul]
          by_cases h : a = b
          · subst h; simp; ring
          · simp [h]
        rwa [e] at this
      zero := hz
      fixed := hfix' }
  have hlim := hG.tendsto hanti hcont (fun q _ => hw q) hP hn
  have hder : ∀ q, ∀ j, HasDerivAt f0 ((fun x => smearPrime i.kind i.σ 0 x) ((s q).eps j - mu0 q)) ((s q).eps j - mu0 q) :=
    fun q j => C65_derivative i.kind i.σ 0 _ hσ.ne'
  have hden : ∀ q, denQ i f s q = i.w q * ∑ j, (fun x => smearPrime i.kind i.σ 0 x) ((s q).eps j - mu0 q) := fun q => by
    unfold denQ
    congr 1
    exact Finset.sum_congr rfl fun j _ => smearPrime_shift _ _ _ _
  have hdir : ∀ q, dirQ i f s dir q = i.w q * ∑ j, (fun x => smearPrime i.kind i.σ 0 x) ((s q).eps j - mu0 q) * (auxDir s dir q j j).re := fun q => by
    unfold dirQ
    congr 1
    exact Finset.sum_congr rfl fun j _ => by rw [smearPrime_shift]
  refine ⟨hz, ?_, hneg.ne⟩
  have hB : ∑ q ∈ P, i.w q * ∑ j, (fun x => smearPrime i.kind i.σ 0 x) ((s q).eps j - mu0 q) ≠ 0 := by
    simp only [← hden]; exact hneg.ne
  have := hG.deriv hlim (fun x => smearPrime i.kind i.σ 0 x) (fun q _ j => hder q j) hB
  simp only [← hden, ← hdir] at this
  exact this

theorem number_eq (i : Info Q n) (m : ℝ × ℝ) (eps : Q → Fin n → ℝ) : number i m eps = ∑ q, i.w q * ∑ j, smear i.kind i.σ (muEff i m q) (eps q j) := by
  unfold number
  simp only [Finset.mul_sum]

theorem magnetization_eq (i : Info Q n) (m : ℝ × ℝ) (eps : Q → Fin n → ℝ) :
    magnetization i m eps = ∑ q, i.spin q * (i.w q * ∑ j, smear i.kind i.σ (muEff i m q) (eps q j)) := by
  unfold magnetization
  simp only [Finset.mul_sum]

theorem dmuNum_eq (i : Info Q n) (f : Search Q n) (p : Phys Q B) (s : Q → QState B n) (c : ℕ) :
    dmuNum i f p s c = ∑ q ∈ Finset.univ.filter (fun q => index i q = c), numQ i f p s q := by
  rw [Finset.sum_filter]; rfl

theorem dmuDen_eq (i : Info Q n) (f : Search Q n) (s : Q → QState B n) (c : ℕ) :
    dmuDen i f s c = ∑ q ∈ Finset.univ.filter (fun q => index i q = c), denQ i f s q := by
  rw [Finset.sum_filter]; rfl

theorem index_or (i : Info Q n) (q : Q) : index i q = 0 ∨ index i q = 1 := by
  unfold index
  split_ifs <;> simp

theorem sum_index (i : Info Q n) (g : Q → ℝ) :
    ∑ q ∈ Finset.univ.filter (fun q => index i q = 0), g q + ∑ q ∈ Finset.univ.filter (fun q => index i q = 1), g q = ∑ q, g q := by
  rw [← Finset.sum_filter_add_sum_filter_not Finset.univ (fun q => index i q = 0) g]
  congr 2
  ext q
  simp only [Finset.mem_filter, Finset.mem_univ, true_and]
  rcases index_or i q with h | h <;> simp [h]

end
end Jdftx.ElecMin
