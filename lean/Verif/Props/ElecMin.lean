import Verif.Lemmas.ElecMinSlope
import Verif.Lemmas.ElecMinEx

/-!
# C85: slopes, orthonormality and rotations of the electronic minimiser
-/
set_option linter.unusedSectionVars false
namespace Jdftx.ElecMin
open Matrix Jdftx.MatFn Jdftx.Smear Filter Topology ComplexConjugate
open scoped ComplexOrder
noncomputable section

variable {Q B : Type} [Fintype Q] [Fintype B] {n : ℕ}

theorem mconstrain_iff (i : Info Q n) : (i.spinZ && i.Bz.isNone) = true ↔ i.spinZ = true ∧ i.Bz = none := by
  simp [Option.isNone_iff_eq_none]

theorem slope_N {i : Info Q n} (hh : i.hsub = true) (hmu : i.mu = none) (hk : i.kind = .fermi ∨ i.kind = .gauss) (hσ : 0 < i.σ) (hcut : 0 ≤ i.cut) (hw : ∀ q, 0 < i.w q)
    (hn : 0 < n) (hQ : Nonempty Q) (hspin : i.SpinsOK) (hmc : (i.spinZ && i.Bz.isNone) = false) {l : Lapack n} (hl : l.OK) {f : Search Q n} {N M : ℝ} (hf : f.OK i N M)
    {p : Phys Q B} (hp : p.OK i.w) {s : Q → QState B n} (ho : Orthonormal p s) (hu : Unitary s) (hsep : Separated s) (hc : CutOK i f s) {dir : Grad Q B n} (ht : Tangent p s dir) :
    SlopeCorrect i l f p s dir := by
  obtain ⟨S, V, ε, s', hstep, hS0, hS, hE, hs'⟩ := hsub_path hh hl hp ho ht
  refine ⟨s', hstep, ?_⟩
  have hmults : ∀ eps, mults i f eps = f.findMu eps := fun eps => by unfold mults; rw [hmu]
  have hmultsE : ∀ eps, multsE i f eps = f.findMu eps := fun eps => by unfold multsE; rw [hmu]
  have heps : ∀ α, (fun q => (s' α q).eps) = fun q => ε q α := fun α => funext fun q => (hs' α q).2
  set e0 : Q → Fin n → ℝ := fun q => (s q).eps with he0
  set b0 : ℝ := (f.findMu e0).2 with hb0
  -- the field is constant, or there are no spins
  have hfield : ∀ eps q, (f.findMu eps).2 * i.spin q = b0 * i.spin q := by
    intro eps q
    cases hB : i.Bz with
    | some b => rw [hb0, hf.field b hB eps, hf.field b hB e0]
    | none =>
      have hz : i.spinZ = false := by
        cases h : i.spinZ with
        | false => rfl
        | true => rw [h, hB] at hmc; simp at hmc
      unfold Info.SpinsOK at hspin
      rw [hz] at hspin
      have : i.spin q = 0 := by simpa using hspin q
      rw [this]; ring
  let δ : ℝ → ℝ := fun α => (f.findMu (fun q => ε q α)).1 - (f.findMu e0).1
  have hmeq : ∀ q α, muEff i (mults i f (fun q => (s' α q).eps)) q = muEff i (mults i f e0) q + δ α := by
    intro q α
    rw [heps, hmults, hmults]
    unfold muEff
    rw [hfield (fun q => ε q α) q, hfield e0 q]
    simp only [δ]; ring
  have hnum : ∀ α, ∑ q, i.w q * ∑ j, smear i.kind i.σ (muEff i (mults i f e0) q + δ α) (ε q α j)
      = ∑ q, i.w q * ∑ j, smear i.kind i.σ (muEff i (mults i f e0) q) ((s q).eps j) := by
    intro α
    have h1 := hf.number (fun q => ε q α)
    have h2 := hf.number e0
    rw [number_eq] at h1 h2
    rw [← hmults] at h2
    refine (Finset.sum_congr rfl fun q _ => ?_).trans (h1.trans h2.symm)
    rw [← hmeq q α, heps, hmults]
  obtain ⟨hδ0, hδ', hden⟩ := group_rate hk hσ hw hn (f := f) hE Finset.univ Finset.univ_nonempty δ hnum
  set δ' := (∑ q, dirQ i f s dir q) / ∑ q, denQ i f s q with hδ'd
  have core := hsub_core hh hσ.ne' hcut (f := f) hp hu hsep hc ht (fun eps q => by rw [hmultsE, hmults]) hS0 hS hE hs'
    (fun q α => muEff i (mults i f e0) q + δ α) (fun _ => δ') (fun q α => (hmeq q α).symm) (fun q => by rw [hδ0, add_zero]) (fun q => hδ'.const_add _)
  obtain ⟨c1, c2⟩ := core
  have hmag : HasDerivAt (fun α => minusMzBz i f (fun q => (s' α q).eps)) (-∑ q, b0 * i.spin q * (dirQ i f s dir q - δ' * denQ i f s q)) 0 := by
    cases hB : i.Bz with
    | none =>
      have hz : i.spinZ = false := by
        cases h : i.spinZ with
        | false => rfl
        | true => rw [h, hB] at hmc; simp at hmc
      unfold Info.SpinsOK at hspin
      rw [hz] at hspin
      have hs0 : ∀ q, i.spin q = 0 := by simpa using hspin
      unfold minusMzBz
      simp only [hB, hs0]
      simpa using hasDerivAt_const (0 : ℝ) (0 : ℝ)
    | some b =>
      have e : (fun α => minusMzBz i f (fun q => (s' α q).eps))
          = fun α => -∑ q, b0 * i.spin q * (i.w q * ∑ j, smear i.kind i.σ (muEff i (mults i f e0) q + δ α) (ε q α j)) := by
        funext α
        unfold minusMzBz
        simp only [hB]
        rw [magnetization_eq, hmultsE, hf.field b hB, hb0, hf.field b hB, ← hmults, neg_mul, Finset.sum_mul]
        congr 1
        refine Finset.sum_congr rfl fun q _ => ?_
        rw [hmeq]
        simp only [(hs' α q).2]
        ring
      rw [e]
      exact (HasDerivAt.fun_sum fun q _ => (c2 q).const_mul (b0 * i.spin q)).neg
  have hfe : (fun α => freeEnergy i f p (s' α)) = fun α => p.E (density i f (s' α)) - entropyTS i f (fun q => (s' α q).eps) + minusMzBz i f (fun q => (s' α q).eps) := by
    funext α
    unfold freeEnergy
    simp only [hh, hmu]
    simp
    ring
  rw [hfe]
  refine (c1.add hmag).congr_deriv ?_
  have hdm : ∀ q, muEff i (dmults i f p s) q = (∑ q, numQ i f p s q) / ∑ q, denQ i f s q := by
    intro q
    unfold muEff dmults
    simp only [hmu, hmc]
    rw [dmuNum_eq, dmuNum_eq, dmuDen_eq, dmuDen_eq, sum_index, sum_index]
    ring
  have hmu0 : ∀ q, muEff i (mults i f e0) q = (f.findMu e0).1 + b0 * i.spin q := fun q => by rw [hmults]; unfold muEff; rw [hfield]
  rw [add_assoc, ← sub_eq_add_neg, ← Finset.sum_sub_distrib]
  have hsum : ∑ q, (-δ' * numQ i f p s q + muEff i (dmults i f p s) q * dirQ i f s dir q + muEff i (mults i f e0) q * (dirQ i f s dir q - δ' * denQ i f s q)
      - b0 * i.spin q * (dirQ i f s dir q - δ' * denQ i f s q)) = 0 := by
    simp only [hdm, hmu0]
    have : ∀ q, -δ' * numQ i f p s q + (∑ q, numQ i f p s q) / (∑ q, denQ i f s q) * dirQ i f s dir q
        + ((f.findMu e0).1 + b0 * i.spin q) * (dirQ i f s dir q - δ' * denQ i f s q) - b0 * i.spin q * (dirQ i f s dir q - δ' * denQ i f s q)
        = -δ' * numQ i f p s q + (∑ q, numQ i f p s q) / (∑ q, denQ i f s q) * dirQ i f s dir q + (f.findMu e0).1 * (dirQ i f s dir q - δ' * denQ i f s q) := fun q => by ring
    simp only [this]
    rw [Finset.sum_add_distrib, Finset.sum_add_distrib, ← Finset.mul_sum, ← Finset.mul_sum, ← Finset.mul_sum, Finset.sum_sub_distrib, ← Finset.mul_sum, hδ'd]
    field_simp
    ring
  rw [hsum, add_zero]

theorem slope_NM {i : Info Q n} (hh : i.hsub = true) (hmu : i.mu = none) (hk : i.kind = .fermi ∨ i.kind = .gauss) (hσ : 0 < i.σ) (hcut : 0 ≤ i.cut) (hw : ∀ q, 0 < i.w q)
    (hn : 0 < n) (hspin : i.SpinsOK) (hmc : (i.spinZ && i.Bz.isNone) = true) (hup : ∃ q, i.spin q = 1) (hdn : ∃ q, i.spin q = -1)
    {l : Lapack n} (hl : l.OK) {f : Search Q n} {N M : ℝ} (hf : f.OK i N M)
    {p : Phys Q B} (hp : p.OK i.w) {s : Q → QState B n} (ho : Orthonormal p s) (hu : Unitary s) (hsep : Separated s) (hc : CutOK i f s) {dir : Grad Q B n} (ht : Tangent p s dir) :
    SlopeCorrect i l f p s dir := by
  obtain ⟨S, V, ε, s', hstep, hS0, hS, hE, hs'⟩ := hsub_path hh hl hp ho ht
  refine ⟨s', hstep, ?_⟩
  obtain ⟨hz, hB⟩ := (mconstrain_iff i).1 hmc
  unfold Info.SpinsOK at hspin
  rw [if_pos hz] at hspin
  have hmults : ∀ eps, mults i f eps = f.findMu eps := fun eps => by unfold mults; rw [hmu]
  have hmultsE : ∀ eps, multsE i f eps = f.findMu eps := fun eps => by unfold multsE; rw [hmu]
  have heps : ∀ α, (fun q => (s' α q).eps) = fun q => ε q α := fun α => funext fun q => (hs' α q).2
  set e0 : Q → Fin n → ℝ := fun q => (s q).eps with he0
  have hidx : ∀ q, (index i q = 0 ∧ i.spin q = 1) ∨ (index i q = 1 ∧ i.spin q = -1) := by
    intro q
    unfold index
    rcases hspin q with h | h
    · left; rw [h]; norm_num
    · right; rw [h]; norm_num
  let sg : ℕ → ℝ := fun c => if c = 0 then 1 else -1
  have hsg : ∀ q, i.spin q = sg (index i q) := fun q => by
    rcases hidx q with ⟨h1, h2⟩ | ⟨h1, h2⟩ <;> simp [sg, h1, h2]
  let δ : ℕ → ℝ → ℝ := fun c α => ((f.findMu (fun q => ε q α)).1 + (f.findMu (fun q => ε q α)).2 * sg c) - ((f.findMu e0).1 + (f.findMu e0).2 * sg c)
  have hmeq : ∀ q α, muEff i (mults i f (fun q => (s' α q).eps)) q = muEff i (mults i f e0) q + δ (index i q) α := by
    intro q α
    rw [heps, hmults, hmults]
    unfold muEff
    rw [hsg q]
    simp only [δ]; ring
  let P : ℕ → Finset Q := fun c => Finset.univ.filter (fun q => index i q = c)
  have chan : ∀ (m : ℝ × ℝ) (eps : Q → Fin n → ℝ), number i m eps = N → magnetization i m eps = M →
      ∑ q ∈ P 0, i.w q * ∑ j, smear i.kind i.σ (muEff i m q) (eps q j) = (N + M) / 2 ∧ ∑ q ∈ P 1, i.w q * ∑ j, smear i.kind i.σ (muEff i m q) (eps q j) = (N - M) / 2 := by
    intro m eps h1 h2
    rw [number_eq, ← sum_index i] at h1
    rw [magnetization_eq, ← sum_index i] at h2
    have h3 : ∑ q ∈ P 0, i.spin q * (i.w q * ∑ j, smear i.kind i.σ (muEff i m q) (eps q j)) = ∑ q ∈ P 0, i.w q * ∑ j, smear i.kind i.σ (muEff i m q) (eps q j) := by
      refine Finset.sum_congr rfl fun q hq => ?_
      have : index i q = 0 := by simpa [P] using hq
      rw [hsg q, this]; simp [sg]
    have h4 : ∑ q ∈ P 1, i.spin q * (i.w q * ∑ j, smear i.kind i.σ (muEff i m q) (eps q j)) = -∑ q ∈ P 1, i.w q * ∑ j, smear i.kind i.σ (muEff i m q) (eps q j) := by
      rw [← Finset.sum_neg_distrib]
      refine Finset.sum_congr rfl fun q hq => ?_
      have : index i q = 1 := by simpa [P] using hq
      rw [hsg q, this]; simp [sg]
    simp only [P] at h3 h4 ⊢
    rw [h3, h4] at h2
    constructor <;> linarith
  have hnum : ∀ c, c = 0 ∨ c = 1 → ∀ α, ∑ q ∈ P c, i.w q * ∑ j, smear i.kind i.σ (muEff i (mults i f e0) q + δ c α) (ε q α j)
      = ∑ q ∈ P c, i.w q * ∑ j, smear i.kind i.σ (muEff i (mults i f e0) q) ((s q).eps j) := by
    intro c hc α
    have h1 := chan _ _ (hf.number (fun q => ε q α)) (hf.magnetization hz hB (fun q => ε q α))
    have h2 := chan _ _ (hf.number e0) (hf.magnetization hz hB e0)
    have e : ∑ q ∈ P c, i.w q * ∑ j, smear i.kind i.σ (muEff i (mults i f e0) q + δ c α) (ε q α j)
        = ∑ q ∈ P c, i.w q * ∑ j, smear i.kind i.σ (muEff i (f.findMu (fun q => ε q α)) q) (ε q α j) := by
      refine Finset.sum_congr rfl fun q hq => ?_
      have hi : index i q = c := by simpa [P] using hq
      rw [← hi, ← hmeq q α, heps, hmults]
    rw [e, hmults]
    rcases hc with rfl | rfl
    · rw [h1.1, ← h2.1]
    · rw [h1.2, ← h2.2]
  have hPne : ∀ c, c = 0 ∨ c = 1 → (P c).Nonempty := by
    intro c hc
    rcases hc with rfl | rfl
    · obtain ⟨q, hq⟩ := hup
      refine ⟨q, ?_⟩
      simp only [P, Finset.mem_filter, Finset.mem_univ, true_and]
      unfold index; rw [hq]; norm_num
    · obtain ⟨q, hq⟩ := hdn
      refine ⟨q, ?_⟩
      simp only [P, Finset.mem_filter, Finset.mem_univ, true_and]
      unfold index; rw [hq]; norm_num
  have hg := fun c hc => group_rate hk hσ hw hn (f := f) hE (P c) (hPne c hc) (δ c) (hnum c hc)
  let δ' : ℕ → ℝ := fun c => (∑ q ∈ P c, dirQ i f s dir q) / ∑ q ∈ P c, denQ i f s q
  have core := hsub_core hh hσ.ne' hcut (f := f) hp hu hsep hc ht (fun eps q => by rw [hmultsE, hmults]) hS0 hS hE hs'
    (fun q α => muEff i (mults i f e0) q + δ (index i q) α) (fun q => δ' (index i q)) (fun q α => (hmeq q α).symm)
    (fun q => by rw [(hg _ (index_or i q)).1, add_zero]) (fun q => (hg _ (index_or i q)).2.1.const_add _)
  obtain ⟨c1, -⟩ := core
  have hfe : (fun α => freeEnergy i f p (s' α)) = fun α => p.E (density i f (s' α)) - entropyTS i f (fun q => (s' α q).eps) := by
    funext α
    unfold freeEnergy minusMzBz
    simp only [hh, hmu, hB]
    simp
  rw [hfe]
  refine c1.congr_deriv ?_
  have hdm : ∀ q, muEff i (dmults i f p s) q = (∑ q ∈ P (index i q), numQ i f p s q) / ∑ q ∈ P (index i q), denQ i f s q := by
    intro q
    unfold muEff dmults
    simp only [hmu, hmc]
    rw [dmuNum_eq, dmuNum_eq, dmuDen_eq, dmuDen_eq]
    rcases hidx q with ⟨h1, h2⟩ | ⟨h1, h2⟩
    · rw [h1, h2]; simp only [P]; ring
    · rw [h1, h2]; simp only [P]; ring
  have hchan : ∀ c, c = 0 ∨ c = 1 → ∑ q ∈ P c, (-δ' (index i q) * numQ i f p s q + muEff i (dmults i f p s) q * dirQ i f s dir q
      + muEff i (mults i f e0) q * (dirQ i f s dir q - δ' (index i q) * denQ i f s q)) = 0 := by
    intro c hc
    have e : ∀ q ∈ P c, (-δ' (index i q) * numQ i f p s q + muEff i (dmults i f p s) q * dirQ i f s dir q
      + muEff i (mults i f e0) q * (dirQ i f s dir q - δ' (index i q) * denQ i f s q))
      = -δ' c * numQ i f p s q + (∑ q ∈ P c, numQ i f p s q) / (∑ q ∈ P c, denQ i f s q) * dirQ i f s dir q
        + ((f.findMu e0).1 + (f.findMu e0).2 * sg c) * (dirQ i f s dir q - δ' c * denQ i f s q) := by
      intro q hq
      have hi : index i q = c := by simpa [P] using hq
      rw [hdm, hi, hmults]
      unfold muEff
      rw [hsg q, hi]
    rw [Finset.sum_congr rfl e, Finset.sum_add_distrib, Finset.sum_add_distrib, ← Finset.mul_sum, ← Finset.mul_sum, ← Finset.mul_sum, Finset.sum_sub_distrib, ← Finset.mul_sum]
    have hd := (hg c hc).2.2
    simp only [δ']
    field_simp
    ring
  rw [← sum_index i, hchan 0 (Or.inl rfl), hchan 1 (Or.inr rfl)]
  ring

/-- **C85 (fixed charge).** Let the energy be a differentiable function of the density matrices, with the Hamiltonian that the program applies as its derivative,
and let the fillings follow the auxiliary Hamiltonian with Fermi or Gaussian smearing at a fixed number of electrons (and, for collinear spin, either
a fixed magnetization or a given magnetic field). At every orthonormal state, for every search direction, the product of gradient and direction
that the line minimiser uses is the derivative of the reported free energy along the program's step, in which the wavefunctions are
orthonormalised, the auxiliary Hamiltonian is diagonalised and the chemical potential is searched anew. -/
theorem C85_slope_charge_partial (i : Info Q n) (hh : i.hsub = true) (hmu : i.mu = none) (hk : i.kind = .fermi ∨ i.kind = .gauss) (hσ : 0 < i.σ) (hcut : 0 ≤ i.cut)
    (hw : ∀ q, 0 < i.w q) (hn : 0 < n) (hQ : Nonempty Q) (hspin : i.SpinsOK) (hboth : i.spinZ = true → i.Bz = none → (∃ q, i.spin q = 1) ∧ ∃ q, i.spin q = -1)
    (l : Lapack n) (hl : l.OK) (f : Search Q n) (N M : ℝ) (hf : f.OK i N M) (p : Phys Q B) (hp : p.OK i.w)
    (s : Q → QState B n) (ho : Orthonormal p s) (hu : Unitary s) (hsep : Separated s) (hc : CutOK i f s) (dir : Grad Q B n) (ht : Tangent p s dir) :
    SlopeCorrect i l f p s dir := by
  cases hmc : (i.spinZ && i.Bz.isNone) with
  | false => exact slope_N hh hmu hk hσ hcut hw hn hQ hspin hmc hl hf hp ho hu hsep hc ht
  | true =>
    obtain ⟨h1, h2⟩ := (mconstrain_iff i).1 hmc
    obtain ⟨h3, h4⟩ := hboth h1 h2
    exact slope_NM hh hmu hk hσ hcut hw hn hspin hmc h3 h4 hl hf hp ho hu hsep hc ht

/-- **C85 (fixed potential).** The same at a fixed chemical potential, for every kind of smearing, without a magnetic field. -/
theorem C85_slope_potential_partial (i : Info Q n) (hh : i.hsub = true) (mu : ℝ) (hmu : i.mu = some mu) (hσ : i.σ ≠ 0) (hcut : 0 ≤ i.cut)
    (hspin : i.SpinsOK) (hfield : i.spinZ = false ∨ i.Bz = some 0) (l : Lapack n) (hl : l.OK) (f : Search Q n) (p : Phys Q B) (hp : p.OK i.w)
    (s : Q → QState B n) (ho : Orthonormal p s) (hu : Unitary s) (hsep : Separated s) (hc : CutOK i f s) (dir : Grad Q B n) (ht : Tangent p s dir) :
    SlopeCorrect i l f p s dir := by
  obtain ⟨S, V, ε, s', hstep, hS0, hS, hE, hs'⟩ := hsub_path hh hl hp ho ht
  refine ⟨s', hstep, ?_⟩
  have hm : ∀ eps q, muEff i (mults i f eps) q = mu := by
    intro eps q
    unfold muEff mults
    rw [hmu]
    rcases hfield with h | h
    · unfold Info.SpinsOK at hspin
      rw [h] at hspin
      have : i.spin q = 0 := by simpa using hspin q
      rw [this]; simp
    · rw [h]; simp
  have hmE : ∀ eps q, muEff i (multsE i f eps) q = mu := fun eps q => by unfold muEff multsE; rw [hmu]; simp
  have core := hsub_core hh hσ hcut (f := f) hp hu hsep hc ht (fun eps q => by rw [hm, hmE]) hS0 hS hE hs' (fun _ _ => mu) (fun _ => 0)
    (fun q α => (hm _ q).symm) (fun q => (hm _ q).symm) (fun q => hasDerivAt_const 0 mu)
  obtain ⟨c1, c2⟩ := core
  have hmz : ∀ eps, minusMzBz i f eps = 0 := by
    intro eps
    unfold minusMzBz multsE
    rw [hmu]
    cases i.Bz <;> simp
  have hfe : (fun α => freeEnergy i f p (s' α)) = fun α => p.E (density i f (s' α)) - entropyTS i f (fun q => (s' α q).eps)
      - mu * ∑ q, i.w q * ∑ j, smear i.kind i.σ mu (ε q α j) := by
    funext α
    unfold freeEnergy
    simp only [hh, hmu, hmz, number_eq, hm]
    simp only [(hs' α _).2]
    simp
  rw [hfe]
  have hnum := (HasDerivAt.fun_sum (u := Finset.univ) fun q _ => c2 q).const_mul mu
  refine (c1.sub hnum).congr_deriv ?_
  have hdm : ∀ q, muEff i (dmults i f p s) q = 0 := by
    intro q
    have : (i.spinZ && i.Bz.isNone) = false := by
      rcases hfield with h | h <;> simp [h]
    unfold muEff dmults
    simp only [hmu, this]
    simp
  simp only [hdm, hm]
  rw [add_sub_assoc, Finset.mul_sum, ← Finset.sum_sub_distrib, Finset.sum_eq_zero, add_zero]
  intro q _
  ring

/-- **C85 (constant fillings).** With constant fillings, scalar ones or arbitrary ones when every state has weight one, the slope is the derivative of the energy. -/
theorem C85_slope_fixed_partial (i : Info Q n) (hh : i.hsub = false) (hw : i.scalar = true ∨ ∀ q, i.w q = 1) (l : Lapack n) (hl : l.OK) (f : Search Q n)
    (p : Phys Q B) (hp : p.OK i.w) (s : Q → QState B n) (ho : Orthonormal p s) (hu : Unitary s) (dir : Grad Q B n) (ht : Tangent p s dir) :
    SlopeCorrect i l f p s dir := by
  obtain ⟨s', h1, h2⟩ := fixed_deriv hh hl f hp ho hu ht
  refine ⟨s', h1, h2.congr_deriv ?_⟩
  unfold dot
  refine Finset.sum_congr rfl fun q _ => ?_
  rcases hw with h | h
  · simp [grad, hh, h]
  · rw [h q, one_mul]

/-- **C85 (start).** From orthonormal wavefunctions the minimisation starts in a state with unitary rotations, in which search directions are those of the
wavefunctions and eigenvalues themselves. -/
theorem C85_start (p : Phys Q B) (C : Q → Matrix B (Fin n) ℂ) (eps : Q → Fin n → ℝ) (hC : ∀ q, (C q)ᴴ * (p.O q * C q) = 1) :
    Orthonormal p (start C eps) ∧ Unitary (start C eps) ∧ ∀ q, (start C eps q).C = C q ∧ (start C eps q).eps = eps q
      ∧ aux (start C eps) q = diagonal (fun j => (eps q j : ℂ)) := by
  refine ⟨hC, fun q => by simp [start], fun q => ⟨rfl, rfl, by simp [aux, start]⟩⟩

/-- **C85 (steps).** From an orthonormal state with unitary rotations, no sequence of steps along a search direction makes the program exit, the
wavefunctions stay orthonormal, the rotation stays unitary, and after the report of the iteration the state is again one from which the slope is right. -/
theorem C85_steps (i : Info Q n) (l : Lapack n) (hl : l.OK) (p : Phys Q B) (w : Q → ℝ) (hp : p.OK w) (s : Q → QState B n) (ho : Orthonormal p s) (hu : Unitary s)
    (dir : Grad Q B n) (ht : Tangent p s dir) (αs : List ℝ) :
    ∃ s', steps i l p dir αs s = some s' ∧ Orthonormal p s' ∧ (∀ q, (s' q).rotPrevC * (s' q).rotPrevCinv = 1) ∧ Orthonormal p (report s') ∧ Unitary (report s') := by
  by_cases hm : i.hsub = true ∨ i.scalar = false
  · obtain ⟨s', h1, h2⟩ := steps_along hm hl hp.overlap ho ht αs 0 s (Along.start ho hu dir)
    refine ⟨s', h1, fun q => (h2 q).ortho, fun q => ?_, fun q => (h2 q).ortho, fun q => ⟨(h2 q).unitary, rfl, rfl⟩⟩
    obtain ⟨R, hR, -, h3, h4⟩ := (h2 q).rot
    have hu' : (s q).rotPrevC * (s q).rotPrevCinv = 1 := by
      rw [(hu q).2.1, (hu q).2.2]; exact mul_eq_one_comm.1 (hu q).1
    rw [h3, h4, Matrix.mul_assoc, ← Matrix.mul_assoc R, Matrix.mul_nonsing_inv _ hR, Matrix.one_mul, hu']
  · have hm' : i.hsub = false ∧ i.scalar = true := by
      rw [not_or] at hm; simpa using hm
    obtain ⟨s', h1, h2⟩ := steps_alongS hm' hl hp.overlap ho ht αs s (fun q => ⟨ho q, ⟨1, 0, by simp, by simp⟩, rfl, rfl, rfl, rfl⟩)
    refine ⟨s', h1, fun q => (h2 q).ortho, fun q => ?_, fun q => (h2 q).ortho, fun q => ⟨?_, rfl, rfl⟩⟩
    · rw [(h2 q).keep.2.2.1, (h2 q).keep.2.2.2, (hu q).2.1, (hu q).2.2]; exact mul_eq_one_comm.1 (hu q).1
    · show ((s' q).rotPrev)ᴴ * (s' q).rotPrev = 1
      rw [(h2 q).keep.2.1]; exact (hu q).1

/-- **C85 (line).** With rotations (variable fillings, or constant fillings that are not scalar), the space spanned by the wavefunctions after successive
steps along a direction depends only on their sum, and so does the auxiliary Hamiltonian, which moves along a straight line. -/
theorem C85_line (i : Info Q n) (hm : i.hsub = true ∨ i.scalar = false) (l : Lapack n) (hl : l.OK) (p : Phys Q B) (w : Q → ℝ) (hp : p.OK w) (s : Q → QState B n)
    (ho : Orthonormal p s) (hu : Unitary s) (dir : Grad Q B n) (ht : Tangent p s dir) (αs βs : List ℝ) (hsum : αs.sum = βs.sum) :
    ∃ s₁ s₂, steps i l p dir αs s = some s₁ ∧ steps i l p dir βs s = some s₂ ∧ span s₁ = span s₂
      ∧ (i.hsub = true → aux s₁ = aux s₂ ∧ ∀ q, aux s₁ q = aux s q + (αs.sum : ℂ) • dir.Haux q) := by
  obtain ⟨s₁, h1, h1'⟩ := steps_along hm hl hp.overlap ho ht αs 0 s (Along.start ho hu dir)
  obtain ⟨s₂, h2, h2'⟩ := steps_along hm hl hp.overlap ho ht βs 0 s (Along.start ho hu dir)
  rw [zero_add] at h1' h2'
  rw [← hsum] at h2'
  refine ⟨s₁, s₂, h1, h2, funext fun q => ?_, fun hh => ⟨funext fun q => ?_, fun q => (h1' q).aux hh⟩⟩
  · obtain ⟨R, hR, hC, -⟩ := (h1' q).rot
    obtain ⟨R', hR', hC', -⟩ := (h2' q).rot
    have o1 := (h1' q).ortho
    have o2 := (h2' q).ortho
    unfold span
    rw [hC] at o1 ⊢
    rw [hC'] at o2 ⊢
    exact span_unique hR hR' o1 o2
  · exact ((h1' q).aux hh).trans ((h2' q).aux hh).symm

/-- **C85 (projection).** The projection applied to the search directions makes them orthogonal to the wavefunctions and leaves those that already are. -/
theorem C85_constrain (p : Phys Q B) (s : Q → QState B n) (ho : Orthonormal p s) (dir : Grad Q B n) (hd : ∀ q, (dir.Haux q).IsHermitian) :
    Tangent p s (constrain p s dir) ∧ (Tangent p s dir → constrain p s dir = dir) := by
  constructor
  · intro q
    refine ⟨?_, hd q⟩
    show ((s q).C)ᴴ * (p.O q * (dir.C q - (s q).C * (((s q).C)ᴴ * (p.O q * dir.C q)))) = 0
    rw [Matrix.mul_sub, Matrix.mul_sub, ← Matrix.mul_assoc (p.O q) (s q).C, ← Matrix.mul_assoc ((s q).Cᴴ) (p.O q * (s q).C), ho q, Matrix.one_mul, sub_self]
  · intro ht
    unfold constrain
    cases dir with
    | mk C H =>
      congr 1
      funext q
      have := (ht q).1
      simp only at this ⊢
      rw [this, Matrix.mul_zero, sub_zero]

/-- **C85 (gradient).** The auxiliary part of the gradient is Hermitian, and the wavefunction part is orthogonal to the wavefunctions. -/
theorem C85_gradient (i : Info Q n) (f : Search Q n) (p : Phys Q B) (s : Q → QState B n) (ho : Orthonormal p s) (q : Q) :
    ((grad i f p s).Haux q).IsHermitian ∧ ((s q).C)ᴴ * (grad i f p s).C q = 0 := by
  have hsym : ∀ A : Mat n, (daggerSymm A).IsHermitian := by
    intro A
    unfold Matrix.IsHermitian daggerSymm
    rw [conjTranspose_smul, conjTranspose_add, conjTranspose_conjTranspose, add_comm]
    congr 1
    rw [show (0.5 : ℂ) = ((0.5 : ℝ) : ℂ) by push_cast; rfl, Complex.star_def, Complex.conj_ofReal]
  constructor
  · cases hh : i.hsub with
    | true =>
      simp only [grad, hh, if_true]
      have h1 : ((rawGrad i f p s).Haux q).IsHermitian := by
        unfold Matrix.IsHermitian
        simp only [rawGrad]
        rw [conjTranspose_smul, (hsym _).eq, Complex.star_def, Complex.conj_ofReal]
      unfold Matrix.IsHermitian
      rw [conjTranspose_mul, conjTranspose_mul, conjTranspose_conjTranspose, h1.eq, Matrix.mul_assoc]
    | false =>
      simp only [grad, hh]
      cases hs : i.scalar with
      | true => simp [Matrix.IsHermitian]
      | false => exact hsym _
  · show ((s q).C)ᴴ * ((p.H (density i f s) q * (s q).C - p.O q * (s q).C * Hsub i f p s q) * diagonal (fun j => ((fill i f (fun q => (s q).eps) q j * i.w q : ℝ) : ℂ)) * (s q).rotPrevCinv) = 0
    have : ((s q).C)ᴴ * (p.H (density i f s) q * (s q).C - p.O q * (s q).C * Hsub i f p s q) = 0 := by
      rw [Matrix.mul_sub, ← Matrix.mul_assoc ((s q).Cᴴ) (p.O q * (s q).C), ho q, Matrix.one_mul]
      exact sub_self _
    rw [← Matrix.mul_assoc, ← Matrix.mul_assoc, this, Matrix.zero_mul, Matrix.zero_mul]

/-! ## Cases that meet the hypotheses -/

example (h : Fin 2 → Matrix (Fin 3) (Fin 3) ℂ) (hh : ∀ q, (h q).IsHermitian) :
    SlopeCorrect (exInfo none none) (std 2) exSearch (lin (fun _ => 1) h) exState exDir :=
  C85_slope_charge_partial (exInfo none none) rfl rfl (Or.inl rfl) one_pos le_rfl (fun _ => one_pos) two_pos ⟨0⟩ (ex_spins _ _)
    (fun _ _ => ⟨⟨0, by simp [exInfo]⟩, ⟨1, by simp [exInfo]⟩⟩) (std 2) std_OK exSearch 2 0 (exSearch_OK none) _ (lin_OK _ h hh)
    exState (exState_ortho _ h) exState_unitary exState_sep (exCut _ _ _ _) exDir (exDir_tangent _ h)

example (h : Fin 2 → Matrix (Fin 3) (Fin 3) ℂ) (hh : ∀ q, (h q).IsHermitian) :
    SlopeCorrect (exInfo (some 0) (some 1)) (std 2) exSearch (lin (fun _ => 1) h) exState exDir :=
  C85_slope_potential_partial (exInfo (some 0) (some 1)) rfl 1 rfl one_ne_zero le_rfl (ex_spins _ _) (Or.inr rfl) (std 2) std_OK exSearch _ (lin_OK _ h hh)
    exState (exState_ortho _ h) exState_unitary exState_sep (exCut _ _ _ _) exDir (exDir_tangent _ h)

example (h : Fin 2 → Matrix (Fin 3) (Fin 3) ℂ) (hh : ∀ q, (h q).IsHermitian) :
    SlopeCorrect { exInfo none none with hsub := false, F0 := fun _ j => if j = 0 then 1 else 0 } (std 2) exSearch (lin (fun _ => 1) h) exState exDir :=
  C85_slope_fixed_partial _ rfl (Or.inr fun _ => rfl) (std 2) std_OK exSearch _ (lin_OK _ h hh) exState (exState_ortho _ h) exState_unitary exDir (exDir_tangent _ h)

example (h : Fin 2 → Matrix (Fin 3) (Fin 3) ℂ) (hh : ∀ q, (h q).IsHermitian) :
    ∃ s₁ s₂, steps (exInfo none none) (std 2) (lin (fun _ => 1) h) exDir [1, -3, 5] exState = some s₁
      ∧ steps (exInfo none none) (std 2) (lin (fun _ => 1) h) exDir [3] exState = some s₂ ∧ span s₁ = span s₂ ∧ aux s₁ = aux s₂ := by
  obtain ⟨s₁, s₂, h1, h2, h3, h4⟩ := C85_line (exInfo none none) (Or.inl rfl) (std 2) std_OK _ _ (lin_OK (fun _ => 1) h hh) exState (exState_ortho _ h) exState_unitary exDir
    (exDir_tangent _ h) [1, -3, 5] [3] (by norm_num)
  exact ⟨s₁, s₂, h1, h2, h3, (h4 rfl).1⟩

example (h : Fin 2 → Matrix (Fin 3) (Fin 3) ℂ) (hh : ∀ q, (h q).IsHermitian) :
    ∃ s', steps (exInfo none none) (std 2) (lin (fun _ => 1) h) exDir [1, 2] exState = some s' ∧ Orthonormal (lin (fun _ => 1) h) s' := by
  obtain ⟨s', h1, h2, -⟩ := C85_steps (exInfo none none) (std 2) std_OK _ _ (lin_OK (fun _ => 1) h hh) exState (exState_ortho _ h) exState_unitary exDir (exDir_tangent _ h) [1, 2]
  exact ⟨s', h1, h2⟩

example (h : Fin 2 → Matrix (Fin 3) (Fin 3) ℂ) (q : Fin 2) :
    ((grad (exInfo none none) exSearch (lin (fun _ => 1) h) exState).Haux q).IsHermitian :=
  (C85_gradient _ _ _ exState (exState_ortho _ h) q).1

example (h : Fin 2 → Matrix (Fin 3) (Fin 3) ℂ) : constrain (lin (fun _ => 1) h) exState exDir = exDir :=
  (C85_constrain _ exState (exState_ortho _ h) exDir (fun q => ((exDir_tangent (fun _ => 1) h) q).2)).2 (exDir_tangent _ h)

/-! ## Where the program departs from the property -/

/-- **C85 (weights).** With constant fillings that are not scalar, the gradient of the rotations lacks the weight of the state: for one state of
weight two with two bands, one of them filled, the slope is half of the derivative. -/
theorem C85_fixed_weights_fails : ∃ (i : Info Unit 2) (f : Search Unit 2) (p : Phys Unit (Fin 2)) (s : Unit → QState (Fin 2) 2) (dir : Grad Unit (Fin 2) 2),
    i.hsub = false ∧ i.w () = 2 ∧ p.OK i.w ∧ Orthonormal p s ∧ Unitary s ∧ Tangent p s dir ∧ ∀ l : Lapack 2, l.OK → ¬ SlopeCorrect i l f p s dir := by
  let i : Info Unit 2 := ⟨fun _ => 2, fun _ => 0, false, .fermi, 1, 0, false, false, none, none, fun _ => ![1, 0]⟩
  let h : Unit → Matrix (Fin 2) (Fin 2) ℂ := fun _ => !![0, 1; 1, 0]
  let s : Unit → QState (Fin 2) 2 := fun _ => ⟨1, 0, 1, 1, 1⟩
  let dir : Grad Unit (Fin 2) 2 := ⟨fun _ => 0, fun _ => !![0, Complex.I; -Complex.I, 0]⟩
  let f : Search Unit 2 := ⟨fun _ => (0, 0), fun _ _ => 0⟩
  have hp : (lin i.w h).OK i.w := lin_OK _ _ fun q => by
    ext a b; fin_cases a <;> fin_cases b <;> simp [h]
  have ho : Orthonormal (lin i.w h) s := fun q => by simp [lin, s]
  have hu : Unitary s := fun q => by simp [s]
  have ht : Tangent (lin i.w h) s dir := fun q => by
    refine ⟨by simp [dir], ?_⟩
    ext a b; fin_cases a <;> fin_cases b <;> simp [dir]
  refine ⟨i, f, lin i.w h, s, dir, rfl, rfl, hp, ho, hu, ht, fun l hl hc => ?_⟩
  obtain ⟨s', h1, h2⟩ := fixed_deriv (i := i) rfl hl f hp ho hu ht
  have e := slope_unique h1 h2 hc
  have hG : (∑ a, ∑ j, conj ((grad i f (lin i.w h) s).Haux () a j) * dir.Haux () a j).re = 2 := by
    simp [grad, i, Fin.sum_univ_two, daggerSymm, Hsub, lin, s, h, dir, fill, Matrix.mul_apply, diagonal_apply, Matrix.vecMul_diagonal]
    norm_num
  unfold dot at e
  simp only [Finset.univ_unique, Finset.sum_singleton] at e
  have hd : (default : Unit) = () := rfl
  rw [hd, hG] at e
  have hw : i.w () = 2 := rfl
  rw [hw] at e
  linarith

/-- One state with spin up and one band, at a fixed chemical potential in a magnetic field. -/
def fieldInfo : Info Unit 1 := ⟨fun _ => 1, fun _ => 1, true, .fermi, 1, 0, true, false, some 0, some 1, fun _ _ => 0⟩

/-- **C85 (field at fixed potential).** At a fixed chemical potential in a given magnetic field the fillings follow the field and the entropy and the
field energy do not: the slope is not the derivative. -/
theorem C85_field_potential_fails : ∃ (i : Info Unit 1) (f : Search Unit 1) (p : Phys Unit (Fin 1)) (s : Unit → QState (Fin 1) 1) (dir : Grad Unit (Fin 1) 1),
    i.hsub = true ∧ i.mu = some 0 ∧ i.Bz = some 1 ∧ i.SpinsOK ∧ p.OK i.w ∧ Orthonormal p s ∧ Unitary s ∧ Separated s ∧ CutOK i f s ∧ Tangent p s dir
      ∧ ∀ l : Lapack 1, l.OK → ¬ SlopeCorrect i l f p s dir := by
  let s : Unit → QState (Fin 1) 1 := fun _ => ⟨1, fun _ => 1, 1, 1, 1⟩
  let dir : Grad Unit (Fin 1) 1 := ⟨fun _ => 0, fun _ => 1⟩
  let f : Search Unit 1 := ⟨fun _ => (0, 0), fun _ _ => 0⟩
  let p : Phys Unit (Fin 1) := lin fieldInfo.w (fun _ => 0)
  have hp : p.OK fieldInfo.w := lin_OK _ _ fun q => by simp
  have ho : Orthonormal p s := fun q => by simp [p, lin, s]
  have hu : Unitary s := fun q => by simp [s]
  have ht : Tangent p s dir := fun q => by
    refine ⟨by simp [dir], by simp [dir]⟩
  have hsep : Separated s := fun q a b h => by simp [s] at h
  have hcut : CutOK fieldInfo f s := by
    intro _ q j
    have h := (C65_bounds .fermi (Or.inl rfl) 1 (muEff fieldInfo (mults fieldInfo f fun q => (s q).eps) q) one_pos).2 ((s q).eps j)
    unfold fill
    simp only [fieldInfo, if_true] at h ⊢
    constructor <;> linarith [h.1, h.2]
  refine ⟨fieldInfo, f, p, s, dir, rfl, rfl, rfl, ?_, hp, ho, hu, hsep, hcut, ht, fun l hl hc => ?_⟩
  · unfold Info.SpinsOK; simp [fieldInfo]
  obtain ⟨S, V, ε, s', hstep, -, -, hE, hs'⟩ := hsub_path (i := fieldInfo) rfl hl hp ho ht
  have hε : ∀ α, ε () α 0 = 1 + α := by
    intro α
    have h := hE () α
    have h1 := congrFun (congrFun h.eq 0) 0
    have h2 := congrFun (congrFun h.left 0) 0
    simp only [Matrix.mul_apply, Finset.univ_unique, Fin.default_eq_zero, Fin.isValue, Finset.sum_singleton, Matrix.add_apply, diagonal_apply_eq, Matrix.smul_apply, smul_eq_mul,
      conjTranspose_apply, one_apply_eq] at h1 h2
    have hv : V () α 0 0 ≠ 0 := fun h0 => by rw [h0, mul_zero] at h2; exact zero_ne_one h2
    have ha : auxDir s dir () 0 0 = 1 := by simp [auxDir, s, dir]
    have he : ((s ()).eps 0 : ℂ) = 1 := by simp [s]
    rw [ha, he, mul_one, mul_comm, mul_right_inj' hv] at h1
    have := congrArg Complex.re h1
    simpa using this.symm
  have hfe : ∀ α, freeEnergy fieldInfo f p (s' α) = -smearEntropy 0 .fermi 1 0 (1 + α) := by
    intro α
    have he : (s' α ()).eps 0 = 1 + α := by rw [(hs' α ()).2, hε]
    simp [freeEnergy, fieldInfo, p, lin, minusMzBz, multsE, entropyTS, muEff, he]
  have hd : HasDerivAt (fun α => freeEnergy fieldInfo f p (s' α)) (-(1 * smearPrime .fermi 1 0 1)) 0 := by
    simp only [hfe]
    have h := C65_entropy 0 le_rfl .fermi 1 0 (1 + 0) one_ne_zero (fun _ => by
      have := (C65_bounds .fermi (Or.inl rfl) 1 0 one_pos).2 (1 + 0)
      constructor <;> linarith [this.1, this.2])
    have h2 := (h.comp_const_add 1 0).neg
    refine h2.congr_deriv ?_
    norm_num
  have e := slope_unique hstep hd hc
  have hdot : dot (grad fieldInfo f p s) dir = -smearPrime .fermi 1 1 1 := by
    simp [dot, grad, rawGrad, fieldInfo, p, lin, s, dir, Hsub, dmults, muEff, mults, daggerSymm, smearGrad]
    norm_num
    ring
  rw [hdot] at e
  unfold smearPrime xOf at e
  simp only [one_mul, sub_zero, sub_self, zero_div, Real.cosh_zero] at e
  have hc1 : (1 : ℝ) < Real.cosh (1 / (2 * 1)) := Real.one_lt_cosh.2 (by norm_num)
  generalize Real.cosh (1 / (2 * 1)) = c at e hc1
  have hc0 : c ≠ 0 := by linarith
  field_simp at e
  nlinarith

/-- Two states of opposite spin with one band each, at a fixed chemical potential and magnetization. -/
def momentInfo : Info (Fin 2) 1 := ⟨fun _ => 1, fun q => if q = 0 then 1 else -1, true, .fermi, 1, 0, true, false, some 0, none, fun _ _ => 0⟩

/-- **C85 (magnetization at fixed potential).** At a fixed chemical potential and magnetization the program divides by the difference, instead of the sum, of the
responses of the two spins: in a state without magnetization it divides a non-zero number by zero. -/
theorem C85_moment_potential_fails : ∃ (i : Info (Fin 2) 1) (f : Search (Fin 2) 1) (p : Phys (Fin 2) (Fin 1)) (s : Fin 2 → QState (Fin 1) 1),
    i.mu = some 0 ∧ i.spinZ = true ∧ i.Bz = none ∧ i.SpinsOK ∧ p.OK i.w ∧ Orthonormal p s ∧ Unitary s ∧ Separated s ∧ CutOK i f s
      ∧ (∀ eps, magnetization i (mults i f eps) eps = 0) ∧ dmults i f p s = (0, (dmuNum i f p s 0 - dmuNum i f p s 1) / (dmuDen i f s 0 - dmuDen i f s 1))
      ∧ dmuDen i f s 0 - dmuDen i f s 1 = 0 ∧ dmuNum i f p s 0 - dmuNum i f p s 1 ≠ 0 := by
  let s : Fin 2 → QState (Fin 1) 1 := fun _ => ⟨1, fun _ => 0, 1, 1, 1⟩
  let f : Search (Fin 2) 1 := ⟨fun _ => (0, 0), fun _ eps => (eps 0 0 - eps 1 0) / 2⟩
  let h : Fin 2 → Matrix (Fin 1) (Fin 1) ℂ := fun q => if q = 0 then 1 else 0
  let p : Phys (Fin 2) (Fin 1) := lin momentInfo.w h
  refine ⟨momentInfo, f, p, s, rfl, rfl, rfl, ?_, lin_OK _ _ fun q => ?_, fun q => by simp [p, lin, s], fun q => by simp [s], fun q a b h => by simp [s] at h, ?_, ?_, rfl, ?_, ?_⟩
  · unfold Info.SpinsOK
    simp only [momentInfo, if_true]
    intro q; fin_cases q <;> simp
  · fin_cases q <;> simp [h, Matrix.IsHermitian]
  · intro _ q j
    have h := (C65_bounds .fermi (Or.inl rfl) 1 (muEff momentInfo (mults momentInfo f fun q => (s q).eps) q) one_pos).2 ((s q).eps j)
    unfold fill
    simp only [momentInfo, if_true] at h ⊢
    constructor <;> linarith [h.1, h.2]
  · intro eps
    simp [magnetization, momentInfo, mults, muEff, f, Fin.sum_univ_two]
    unfold smear
    have : xOf 1 ((eps 0 0 - eps 1 0) / 2) (eps 0 0) = xOf 1 (-((eps 0 0 - eps 1 0) / 2)) (eps 1 0) := by unfold xOf; ring
    rw [this]; ring
  · simp [dmuDen, momentInfo, mults, muEff, f, s, index, Fin.sum_univ_two]
  · simp [dmuNum, momentInfo, mults, muEff, f, s, index, Fin.sum_univ_two, Hsub, p, lin, h, smearPrime, xOf]
    norm_num

/-- One state of weight one with one filled band. -/
def oneInfo (scalar : Bool) : Info Unit 1 := ⟨fun _ => 1, fun _ => 0, false, .fermi, 1, 0, false, scalar, none, none, fun _ _ => 1⟩

def oneState (_ : Unit) : QState (Fin 2) 1 := ⟨!![1; 0], fun _ => 0, 1, 1, 1⟩

def oneDir : Grad Unit (Fin 2) 1 := ⟨fun _ => !![0; 1], fun _ => 0⟩

def onePhys : Phys Unit (Fin 2) := lin (fun _ => 1) (fun _ => !![0, 0; 0, 1])

theorem one_cases : onePhys.OK (fun _ => 1) ∧ Orthonormal onePhys oneState ∧ Unitary oneState ∧ Tangent onePhys oneState oneDir := by
  refine ⟨lin_OK _ _ fun q => ?_, fun q => ?_, fun q => by simp [oneState], fun q => ⟨?_, by simp [oneDir]⟩⟩
  · ext a b; fin_cases a <;> fin_cases b <;> simp
  · ext a b; fin_cases a; fin_cases b; simp [onePhys, lin, oneState, Matrix.mul_apply, Fin.sum_univ_two]
  · ext a b; fin_cases a; fin_cases b; simp [onePhys, lin, oneState, oneDir, Matrix.mul_apply, Fin.sum_univ_two]

/-- The first step of length one. -/
theorem one_step {l : Lapack 1} (hl : l.OK) : ∃ S : Mat 1, orthoMatrix l (((!![1; 1] : Matrix (Fin 2) (Fin 1) ℂ))ᴴ * ((1 : Matrix (Fin 2) (Fin 2) ℂ) * (!![1; 1] : Matrix (Fin 2) (Fin 1) ℂ))) = some S
    ∧ Complex.normSq (S 0 0) = 1 / 2 ∧ IsUnit S.det := by
  have hA : (((!![1; 1] : Matrix (Fin 2) (Fin 1) ℂ))ᴴ * ((1 : Matrix (Fin 2) (Fin 2) ℂ) * (!![1; 1] : Matrix (Fin 2) (Fin 1) ℂ))).PosDef := by
    rw [Matrix.one_mul]
    refine PosDef.conjTranspose_mul_self _ fun x y h => ?_
    have := congrFun h 0
    funext j
    fin_cases j
    simpa [Matrix.mulVec, dotProduct] using this
  obtain ⟨S, h1, h2, h3⟩ := ortho_ex hl hA
  refine ⟨S, h1, ?_, h3⟩
  have h4 := congrFun (congrFun h2 0) 0
  simp [Matrix.mul_apply, Fin.sum_univ_two] at h4
  have h5 : ((Complex.normSq (S 0 0) : ℝ) : ℂ) * 2 = 1 := by
    rw [← Complex.mul_conj]
    linear_combination h4
  have h6 : Complex.normSq (S 0 0) * 2 = 1 := by exact_mod_cast h5
  linarith

/-- **C85 (constant scalar fillings).** Without rotations the states visited do not depend only on the sum of the steps: going forward by one and back by one ends
in another space. -/
theorem C85_scalar_line_fails : ∃ (i : Info Unit 1) (p : Phys Unit (Fin 2)) (s : Unit → QState (Fin 2) 1) (dir : Grad Unit (Fin 2) 1),
    i.hsub = false ∧ i.scalar = true ∧ p.OK i.w ∧ Orthonormal p s ∧ Unitary s ∧ Tangent p s dir
      ∧ ∀ l : Lapack 1, l.OK → ∃ s', steps i l p dir [1, -1] s = some s' ∧ span s' ≠ span s := by
  obtain ⟨hp, ho, hu, ht⟩ := one_cases
  refine ⟨oneInfo true, onePhys, oneState, oneDir, rfl, rfl, hp, ho, hu, ht, fun l hl => ?_⟩
  obtain ⟨S, hS, hn, hSu⟩ := one_step hl
  have hX : (oneState ()).C + ((1 : ℝ) : ℂ) • (oneDir.C () * (oneState ()).rotPrevC) = (!![1; 1] : Matrix (Fin 2) (Fin 1) ℂ) := by
    ext a b; fin_cases a <;> fin_cases b <;> simp [oneState, oneDir]
  have h1 : stepQ (oneInfo true) l (onePhys.O ()) (oneDir.C ()) (oneDir.Haux ()) 1 (oneState ()) = some { oneState () with C := (!![1; 1] : Matrix (Fin 2) (Fin 1) ℂ) * S } := by
    unfold stepQ
    rw [hX]
    simp only [onePhys, lin, hS, Option.map_some]
    simp [oneInfo]
  obtain ⟨s', h2, -⟩ := C85_steps (oneInfo true) l hl onePhys _ hp oneState ho hu oneDir ht [1, -1]
  refine ⟨s', h2, fun he => ?_⟩
  unfold steps at h2
  have h1' : step (oneInfo true) l onePhys oneState oneDir 1 = some (fun _ => { oneState () with C := (!![1; 1] : Matrix (Fin 2) (Fin 1) ℂ) * S }) :=
    step_some.2 fun _ => h1
  rw [h1'] at h2
  simp only [Option.bind_some, steps] at h2
  cases h3 : step (oneInfo true) l onePhys (fun _ => { oneState () with C := (!![1; 1] : Matrix (Fin 2) (Fin 1) ℂ) * S }) oneDir (-1) with
  | none => rw [h3] at h2; simp at h2
  | some s₂ =>
    rw [h3] at h2
    obtain rfl : s₂ = s' := by simpa using h2
    have h4 := step_some.1 h3 ()
    unfold stepQ at h4
    obtain ⟨S₂, hS₂, h5⟩ := Option.map_eq_some_iff.1 h4
    obtain ⟨-, -, -, -, -, hu₂⟩ := ortho_some hl hS₂
    have h6 : (s₂ ()).C = ((!![1; 1] : Matrix (Fin 2) (Fin 1) ℂ) * S + ((-1 : ℝ) : ℂ) • (oneDir.C () * (oneState ()).rotPrevC)) * S₂ := by
      rw [← h5]; simp [oneInfo]
    have h7 := congrFun (congrFun (congrFun he ()) 0) 1
    unfold span at h7
    rw [h6] at h7
    simp [Matrix.mul_apply, oneState, oneDir, Matrix.vecMul, dotProduct, Matrix.vecHead] at h7
    rw [det_fin_one] at hu₂
    rcases h7 with (h | h) | h | h
    · rw [h] at hn; norm_num at hn
    · rw [h] at hu₂; simp at hu₂
    · have : S 0 0 = 1 := by
        have := congrArg conj h
        simp at this
        linear_combination this
      rw [this] at hn; norm_num at hn
    · rw [h] at hu₂; simp at hu₂

/-- **C85 (gradient kept from the line search).** The gradient at the end of a line search is rotated by the inverse of a rotation that is not unitary, and the report of the
iteration then replaces that rotation: the slope that the next line search takes from this gradient is not the derivative, which is the one from the
gradient at the reported state. -/
theorem C85_stale_gradient_fails : ∃ (i : Info Unit 1) (f : Search Unit 1) (p : Phys Unit (Fin 2)) (s : Unit → QState (Fin 2) 1) (dir : Grad Unit (Fin 2) 1),
    i.hsub = false ∧ i.scalar = false ∧ p.OK i.w ∧ Orthonormal p s ∧ Unitary s ∧ Tangent p s dir
      ∧ ∀ l : Lapack 1, l.OK → ∃ s₁ dir', step i l p s dir 1 = some s₁ ∧ Tangent p (report s₁) dir' ∧ SlopeCorrect i l f p (report s₁) dir'
        ∧ dot (grad i f p (report s₁)) dir' ≠ dot (grad i f p s₁) dir' := by
  obtain ⟨hp, ho, hu, ht⟩ := one_cases
  let f : Search Unit 1 := ⟨fun _ => (0, 0), fun _ _ => 0⟩
  refine ⟨oneInfo false, f, onePhys, oneState, oneDir, rfl, rfl, hp, ho, hu, ht, fun l hl => ?_⟩
  obtain ⟨S, hS, hn, hSu⟩ := one_step hl
  have hX : (oneState ()).C + ((1 : ℝ) : ℂ) • (oneDir.C () * (oneState ()).rotPrevC) = (!![1; 1] : Matrix (Fin 2) (Fin 1) ℂ) := by
    ext a b; fin_cases a <;> fin_cases b <;> simp [oneState, oneDir]
  let s₁ : Unit → QState (Fin 2) 1 := fun _ => ⟨(!![1; 1] : Matrix (Fin 2) (Fin 1) ℂ) * S, fun _ => 0, 1, S, S⁻¹⟩
  have h1 : stepQ (oneInfo false) l (onePhys.O ()) (oneDir.C ()) (oneDir.Haux ()) 1 (oneState ()) = some (s₁ ()) := by
    unfold stepQ
    rw [hX]
    simp only [onePhys, lin, hS, Option.map_some]
    simp [oneInfo, oneDir, cis_zero hl, oneState, s₁]
  have hst : step (oneInfo false) l onePhys oneState oneDir 1 = some s₁ := step_some.2 fun _ => h1
  obtain ⟨s₂, h2, -, -, h3, h4⟩ := C85_steps (oneInfo false) l hl onePhys _ hp oneState ho hu oneDir ht [1]
  obtain rfl : s₁ = s₂ := by
    unfold steps at h2
    rw [hst] at h2
    simpa [steps] using h2
  let dir' : Grad Unit (Fin 2) 1 := ⟨fun _ => !![-1; 1], fun _ => 0⟩
  have ht' : Tangent onePhys (report s₁) dir' := fun q => by
    refine ⟨?_, by simp [dir']⟩
    ext a b; fin_cases a; fin_cases b; simp [report, s₁, dir', onePhys, lin, Matrix.mul_apply, Fin.sum_univ_two]
  refine ⟨s₁, dir', hst, ht', C85_slope_fixed_partial _ rfl (Or.inr fun _ => rfl) l hl f onePhys hp (report s₁) h3 h4 dir' ht', fun he => ?_⟩
  have hraw : ∀ b, (rawGrad (oneInfo false) f onePhys s₁).C () b 0 = ((if b = 0 then -1 / 2 else 1 / 2 : ℝ) : ℂ) * S 0 0 := by
    intro b
    have hc : conj (S 0 0) * S 0 0 = 1 / 2 := by
      rw [mul_comm, Complex.mul_conj, hn]; push_cast; rfl
    fin_cases b <;> simp [rawGrad, Hsub, onePhys, lin, s₁, oneInfo, fill, Matrix.mul_apply, Fin.sum_univ_two, Matrix.vecMul, dotProduct]
    · linear_combination (-S 0 0) * hc
    · linear_combination (-S 0 0) * hc
  have hraw' : (rawGrad (oneInfo false) f onePhys (report s₁)).C = (rawGrad (oneInfo false) f onePhys s₁).C := rfl
  have hinv : S 0 0 * (S⁻¹) 0 0 = 1 := by
    have := congrFun (congrFun (Matrix.mul_nonsing_inv S hSu) 0) 0
    simpa [Matrix.mul_apply] using this
  have e1 : dot (grad (oneInfo false) f onePhys s₁) dir' = 2 := by
    unfold dot grad
    simp only [Matrix.mul_apply, Finset.univ_unique, Finset.sum_singleton, Fin.sum_univ_two]
    have hd : (default : Unit) = () := rfl
    have hd' : (default : Fin 1) = 0 := rfl
    rw [hd, hd', hraw, hraw]
    have : ∀ x : ℂ, x * S 0 0 * (s₁ ()).rotPrevCinv 0 0 = x := fun x => by
      rw [mul_assoc]; show x * (S 0 0 * S⁻¹ 0 0) = x; rw [hinv, mul_one]
    rw [this, this]
    have h2 : (starRingEnd ℂ) 2 = 2 := map_ofNat _ 2
    simp [dir', h2]
    norm_num
  have e2 : dot (grad (oneInfo false) f onePhys (report s₁)) dir' = 2 * (S 0 0).re := by
    unfold dot grad
    simp only [Matrix.mul_apply, Finset.univ_unique, Finset.sum_singleton, Fin.sum_univ_two]
    have hd : (default : Unit) = () := rfl
    have hd' : (default : Fin 1) = 0 := rfl
    rw [hd, hd', hraw', hraw, hraw]
    have : ((report s₁) ()).rotPrevCinv 0 0 = 1 := by simp [report, s₁]
    rw [this]
    have h2 : (starRingEnd ℂ) 2 = 2 := map_ofNat _ 2
    simp [dir', h2]
    norm_num
    ring
  rw [e1, e2] at he
  have h5 : (S 0 0).re = 1 := by linarith
  rw [Complex.normSq_apply, h5] at hn
  nlinarith [mul_self_nonneg (S 0 0).im]

end
end Jdftx.ElecMin
