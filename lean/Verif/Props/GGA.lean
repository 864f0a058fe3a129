import Verif.Lemmas.GGAEnergy
import Verif.Props.ExCorr

/-!
# C87: generalised gradient approximations
-/
namespace Jdftx.GGA
noncomputable section
open Filter Topology
open Jdftx.LDA (V1 V2 nCutoff rsOf)

/-! ### Potentials -/

theorem evalC_zero (v : CVar) (rs g t2 : ℝ) : (evalC v rs 0 g t2).e_zeta = 0 := by
  cases v <;> simp only [evalC, pbeCorrelation, pw91Correlation, LDA.eval_zero] <;> ring

theorem cPoint_zero (v : CVar) (scaleFac n sigma : ℝ) : (cPoint v scaleFac n 0 sigma).2.1 = (cPoint v scaleFac n 0 sigma).2.2.1 := by
  have hg : gZeta 0 = 0 := by simp [gZeta]
  by_cases h : n < nCutoff
  · simp only [cPoint, if_pos h]
  · simp only [cPoint, if_neg h, evalC_zero, hg]
    ring

/-- Without spin: at every density and gradient where the functional is smooth, zero gradient included (except for the
screened functional), the reported derivatives are those of the energy. -/
theorem C87_potential (v : Variant) (scaleFac n sigma : ℝ) (h0 : 0 ≤ sigma) (hs : Smooth1 v n sigma) :
    Derivatives1 (compute1 v scaleFac) n sigma := by
  cases v with
  | x v =>
    have hs' : SmoothX v (n * 1) (1 ^ 2 * sigma) := by simpa [Smooth1] using hs
    exact xTurn_curve v 1 scaleFac n sigma one_pos hs' h0
  | c v =>
    obtain ⟨hn, hcut⟩ := hs
    have hc : nCutoff < 1 := by norm_num [nCutoff]
    refine ⟨_, _, rfl, rfl, fun a b a' b' ha0 hb0 _ ha hb => ?_⟩
    obtain ⟨ez, hd, he⟩ := cPoint_curve v scaleFac n 0 sigma hn hcut (by simpa using hc) (by simpa using hc) h0 a (fun _ => 0) b a' 0 b' ha0 rfl hb0
      ha (hasDerivAt_const _ _) hb
    have hz := cPoint_zero v scaleFac n sigma
    have : ez = 0 := by linarith
    subst this
    refine hd.congr_deriv ?_
    ring
  | gllbsc => exact hs.elim
  | lb94 => exact hs.elim

/-- With spin. -/
theorem C87_spin_potential (v : Variant) (scaleFac n0 n1 s0 s1 s2 : ℝ) (h0 : 0 ≤ s0) (h2 : 0 ≤ s2) (ht : 0 ≤ s0 + 2 * s1 + s2)
    (hs : Smooth2 v n0 n1 s0 s2) : Derivatives2 (compute2 v scaleFac) n0 n1 s0 s1 s2 := by
  cases v with
  | x v =>
    obtain ⟨hu, hd⟩ := hs
    have e : ∀ n s : ℝ, SmoothX v (2 * n) (4 * s) → SmoothX v (n * 2) (2 ^ 2 * s) := by
      intro n s h
      rwa [mul_comm n, show (2 : ℝ) ^ 2 = 4 by norm_num]
    obtain ⟨d0, e0, a1, a2, a3⟩ := xTurn_curve v 2 scaleFac n0 s0 two_pos (e _ _ hu) h0
    obtain ⟨d1, e1, b1, b2, b3⟩ := xTurn_curve v 2 scaleFac n1 s2 two_pos (e _ _ hd) h2
    refine ⟨d0, d1, e0, 0, e1, a1, b1, a2, rfl, b2, fun a b p q r a' b' p' q' r' ha0 hb0 hp0 hq0 hr0 hpp hrp ha hb hp hq hr => ?_⟩
    refine ((a3 a p a' p' ha0 hp0 hpp ha hp).fun_add (b3 b r b' r' hb0 hr0 hrp hb hr)).congr_deriv ?_
    ring
  | c v =>
    obtain ⟨p0, p1, hcut, hf0, hf1⟩ := hs
    have hn : 0 < n0 + n1 := by linarith
    refine ⟨_, _, _, _, _, rfl, rfl, rfl, rfl, rfl, fun a b p q r a' b' p' q' r' ha0 hb0 hp0 hq0 hr0 _ _ ha hb hp hq hr => ?_⟩
    have hT := ha.fun_add hb
    have hT0 : a 0 + b 0 = n0 + n1 := by rw [ha0, hb0]
    have hz := (ha.fun_sub hb).fun_div hT (show a 0 + b 0 ≠ 0 by rw [hT0]; exact hn.ne')
    have e1 : 1 + (n0 - n1) / (n0 + n1) = 2 * n0 / (n0 + n1) := by field_simp; ring
    have e2 : 1 - (n0 - n1) / (n0 + n1) = 2 * n1 / (n0 + n1) := by field_simp; ring
    obtain ⟨ez, hd, he⟩ := cPoint_curve v scaleFac (n0 + n1) ((n0 - n1) / (n0 + n1)) (s0 + 2 * s1 + s2) hn hcut (by rw [e1]; exact hf0)
      (by rw [e2]; exact hf1) ht (fun t => a t + b t) (fun t => (a t - b t) / (a t + b t)) (fun t => p t + 2 * q t + r t) _ _ _
      (by simp only [ha0, hb0]) (by simp only [ha0, hb0]) (by simp only [hp0, hq0, hr0]) hT hz ((hp.fun_add (hq.const_mul 2)).fun_add hr)
    simp only [compute2]
    refine hd.congr_deriv ?_
    rw [ha0, hb0]
    generalize (cPoint v scaleFac (n0 + n1) ((n0 - n1) / (n0 + n1)) (s0 + 2 * s1 + s2)).2.2.2 = es
    generalize (cPoint v scaleFac (n0 + n1) ((n0 - n1) / (n0 + n1)) (s0 + 2 * s1 + s2)).2.2.1 = ed at *
    generalize (cPoint v scaleFac (n0 + n1) ((n0 - n1) / (n0 + n1)) (s0 + 2 * s1 + s2)).2.1 = eu at *
    have hez : ed = eu - 2 * ez := by linear_combination -he
    rw [hez]
    have := hn.ne'
    field_simp
    ring
  | gllbsc => exact hs.elim
  | lb94 => exact hs.elim

/-- A density of one electron per cubic bohr with unit gradient is smooth for every functional that has an energy. -/
example : Smooth1 (.x .pbe) 1 0 ∧ Smooth1 (.x .pw91) 1 0 ∧ Smooth1 (.c .pbe) 1 1 ∧ Smooth2 (.c .pw91) 1 (1 / 2) 1 1 ∧ Smooth2 (.x .vw) 1 (1 / 2) 1 1 := by
  have hc : nCutoff = 1e-16 := rfl
  refine ⟨⟨one_pos, ?_, by simp⟩, ⟨one_pos, ?_, by simp⟩, ⟨one_pos, ?_⟩, ⟨one_pos, by norm_num, ?_, ?_, ?_⟩,
    ⟨by norm_num, ?_, by simp⟩, ⟨by norm_num, ?_, by simp⟩⟩ <;> rw [hc] <;> norm_num

/-- The screened functional is smooth at this density and gradient. -/
example : Smooth1 (.x .wpbe) 1 1 := by
  have hk : kF 1 ^ 2 = (3 * Real.pi * Real.pi) ^ (2 / 3 : ℝ) := by rw [kF_sq 1 one_pos]; simp
  have hs : sSquared 1 1 < 1 := by
    have h1 : 1 < kF 1 ^ 2 := by
      rw [hk]
      refine Real.one_lt_rpow ?_ (by norm_num)
      nlinarith [Real.pi_gt_three]
    unfold sSquared
    rw [div_lt_one (by nlinarith)]
    nlinarith
  exact ⟨one_pos, by norm_num [nCutoff], fun _ => ⟨one_pos, hs.ne, by linarith⟩⟩

/-! ### Energies -/

/-- Without spin: the energy density is that of the publication, for every density at or above the cutoff. -/
theorem C87_energy (scaleFac n sigma rs : ℝ) (h : nCutoff ≤ n) (hs : 0 ≤ sigma) (hr : LDA.IsRadius rs n) :
    (∀ v, v ≠ .wpbe → (compute1 (.x v) scaleFac n sigma).E = scaleFac * publishedX v n sigma) ∧
    (∀ v, (compute1 (.c v) scaleFac n sigma).E = scaleFac * publishedC v rs n 0 sigma) := by
  refine ⟨fun v hv => ?_, fun v => cPoint_energy v scaleFac n 0 sigma rs h (by norm_num) (by norm_num) hr⟩
  have := xTurn_energy v hv 1 scaleFac n sigma one_pos (by simpa using h) hs
  simpa [compute1] using this

/-- With spin: functionals of a single density are averaged over twice each spin density. -/
theorem C87_spin_energy (scaleFac n0 n1 s0 s1 s2 : ℝ) :
    (∀ v, v ≠ .wpbe → nCutoff ≤ 2 * n0 → nCutoff ≤ 2 * n1 → 0 ≤ s0 → 0 ≤ s2 →
      (compute2 (.x v) scaleFac n0 n1 s0 s1 s2).E = scaleFac * ((publishedX v (2 * n0) (4 * s0) + publishedX v (2 * n1) (4 * s2)) / 2)) ∧
    (∀ v rs, 0 ≤ n0 → 0 ≤ n1 → nCutoff ≤ n0 + n1 → LDA.IsRadius rs (n0 + n1) →
      (compute2 (.c v) scaleFac n0 n1 s0 s1 s2).E = scaleFac * publishedC v rs (n0 + n1) ((n0 - n1) / (n0 + n1)) (s0 + 2 * s1 + s2)) := by
  refine ⟨fun v hv h0 h1 q0 q2 => ?_, fun v rs h0 h1 h hr => ?_⟩
  · simp only [compute2, both]
    rw [xTurn_energy v hv 2 scaleFac n0 s0 two_pos (by linarith) q0, xTurn_energy v hv 2 scaleFac n1 s2 two_pos (by linarith) q2,
      mul_comm n0, mul_comm n1, show (2 : ℝ) ^ 2 = 4 by norm_num]
    ring
  · have hn : 0 < n0 + n1 := lt_of_lt_of_le (by norm_num [nCutoff]) h
    exact cPoint_energy v scaleFac _ _ _ rs h (by rw [le_div_iff₀ hn]; linarith) (by rw [div_le_one hn]; linarith) hr

example : ∃ rs, LDA.IsRadius rs 1 := ⟨rsOf 1, LDA.rsOf_radius 1 one_pos⟩

/-- At zero gradient the energies are those of the local density approximation: exchange that of Slater, correlation that of
Perdew and Wang, the kinetic energy that of Thomas and Fermi, and none for von Weizsacker. -/
theorem C87_uniform (scaleFac n rs : ℝ) (h : nCutoff ≤ n) (hr : LDA.IsRadius rs n) :
    (∀ v, v = .pbe ∨ v = .pbesol ∨ v = .pw91 → (compute1 (.x v) scaleFac n 0).E = (LDA.compute1 .slater scaleFac n).E) ∧
    (compute1 (.x .pw91k) scaleFac n 0).E = (LDA.compute1 .tf scaleFac n).E ∧ (compute1 (.x .vw) scaleFac n 0).E = 0 ∧
    (∀ v, v = .pbe ∨ v = .pbesol → (compute1 (.c v) scaleFac n 0).E = (LDA.compute1 (.corr .pwPrec) scaleFac n).E) ∧
    (compute1 (.c .pw91) scaleFac n 0).E = (LDA.compute1 (.corr .pw) scaleFac n).E := by
  have hn : 0 < n := lt_of_lt_of_le (by norm_num [nCutoff]) h
  obtain ⟨hx, _⟩ := C87_energy scaleFac n 0 rs h le_rfl hr
  obtain ⟨hsl, htf, _⟩ := LDA.C72_energy scaleFac n rs hn hr
  have s0 : sSquared n 0 = 0 := by simp [sSquared]
  have f0 : ∀ mu, pbeFactor mu 0 = 1 := fun mu => by simp [pbeFactor]
  have g0 : ∀ P Q R S T U, pw91Factor P Q R S T U (Real.sqrt 0) = 1 := fun P Q R S T U => by simp [pw91Factor]
  refine ⟨fun v hv => ?_, ?_, ?_, fun v hv => ?_, ?_⟩
  · rw [hx v (by rcases hv with rfl | rfl | rfl <;> simp), hsl]
    rcases hv with rfl | rfl | rfl <;> simp [publishedX, s0, f0, -Real.sqrt_zero, g0]
  · rw [hx _ (by simp), htf]
    simp [publishedX, s0, -Real.sqrt_zero, g0]
  · rw [hx _ (by simp)]
    simp [publishedX]
  · rcases hv with rfl | rfl <;> simp [compute1, cPoint, LDA.compute1, LDA.corr1, if_neg (not_lt.2 h), evalC, pbeCorrelation, pw91H0_zero]
  · simp [compute1, cPoint, LDA.compute1, LDA.corr1, if_neg (not_lt.2 h), evalC, pw91Correlation, pw91H0_zero]

/-! ### Symmetry -/

/-- Without polarisation: a calculation with two equal spin densities gives the energy of one without spin. -/
theorem C87_unpolarised (v : Variant) (scaleFac n sigma : ℝ) :
    (compute2 v scaleFac (n / 2) (n / 2) (sigma / 4) (sigma / 4) (sigma / 4)).E = (compute1 v scaleFac n sigma).E := by
  have hs : ∀ ns, s2Sigma 2 ns * (sigma / 4) = s2Sigma 1 ns * sigma := by
    intro ns; unfold s2Sigma; ring
  have hn : n / 2 * 2 = n := by ring
  cases v with
  | x v =>
    simp only [compute2, compute1, both, xTurn, hn, mul_one]
    by_cases h : n < nCutoff
    · simp only [if_pos h]; ring
    · simp only [if_neg h, hs]; ring
  | gllbsc =>
    simp only [compute2, compute1, both, gllbTurn, hn, mul_one]
    by_cases h : n < nCutoff
    · simp only [if_pos h]; ring
    · simp only [if_neg h, hs]; ring
  | lb94 =>
    simp only [compute2, compute1, both, lb94Turn, hn, mul_one]
    by_cases h : n < nCutoff
    · simp only [if_pos h]; ring
    · simp only [if_neg h]; ring
  | c v =>
    simp only [compute2, compute1]
    rw [show n / 2 + n / 2 = n by ring, show n / 2 - n / 2 = 0 by ring, zero_div, show sigma / 4 + 2 * (sigma / 4) + sigma / 4 = sigma by ring]

theorem eval_flip (c : LDA.Corr) (hc : c = .pw ∨ c = .pwPrec) (rs z : ℝ) : (LDA.eval c rs (-z)).e = (LDA.eval c rs z).e ∧
    (LDA.eval c rs (-z)).e_rs = (LDA.eval c rs z).e_rs ∧ (LDA.eval c rs (-z)).e_zeta = -(LDA.eval c rs z).e_zeta := by
  have hf : LDA.spinF (-z) = LDA.spinF z := by
    simp only [LDA.spinF]
    rw [show 1 + -z = 1 - z by ring, show 1 - -z = 1 + z by ring]
    ring
  have hg : LDA.spinF_zeta (-z) = -LDA.spinF_zeta z := by
    simp only [LDA.spinF_zeta]
    rw [show 1 + -z = 1 - z by ring, show 1 - -z = 1 + z by ring]
    ring
  have h4 : (-z) ^ 4 = z ^ 4 := by ring
  rcases hc with rfl | rfl <;> simp only [LDA.eval, LDA.spinInterpolate3_eq, hf, hg, h4] <;> refine ⟨trivial, trivial, ?_⟩ <;> ring

theorem evalC_flip (v : CVar) (rs z g t2 : ℝ) : (evalC v rs (-z) g t2).e = (evalC v rs z g t2).e ∧ (evalC v rs (-z) g t2).e_rs = (evalC v rs z g t2).e_rs ∧
    (evalC v rs (-z) g t2).e_zeta = -(evalC v rs z g t2).e_zeta ∧ (evalC v rs (-z) g t2).e_g = (evalC v rs z g t2).e_g ∧
    (evalC v rs (-z) g t2).e_t2 = (evalC v rs z g t2).e_t2 := by
  obtain ⟨a1, a2, a3⟩ := eval_flip .pwPrec (Or.inr rfl) rs z
  obtain ⟨b1, b2, b3⟩ := eval_flip .pw (Or.inl rfl) rs z
  cases v <;> simp only [evalC, pbeCorrelation, pw91Correlation, a1, a2, a3, b1, b2, b3] <;> refine ⟨trivial, trivial, ?_, trivial, trivial⟩ <;> ring

theorem cPoint_flip (v : CVar) (scaleFac n z sigma : ℝ) : cPoint v scaleFac n (-z) sigma =
    ((cPoint v scaleFac n z sigma).1, (cPoint v scaleFac n z sigma).2.2.1, (cPoint v scaleFac n z sigma).2.1, (cPoint v scaleFac n z sigma).2.2.2) := by
  have hg : gOf (-z) = gOf z := by
    simp only [gOf]
    rw [show 1 + -z = 1 - z by ring, show 1 - -z = 1 + z by ring, add_comm]
  have hz : gZeta (-z) = -gZeta z := by
    simp only [gZeta]
    rw [show 1 + -z = 1 - z by ring, show 1 - -z = 1 + z by ring]
    ring
  by_cases h : n < nCutoff
  · simp only [cPoint, if_pos h]
  · obtain ⟨a1, a2, a3, a4, a5⟩ := evalC_flip v (rsOf n) z (gOf z) (t2Sigma n (gOf z) * sigma)
    simp only [cPoint, if_neg h, hg, hz, a1, a2, a3, a4, a5]
    refine Prod.ext rfl (Prod.ext ?_ (Prod.ext ?_ rfl)) <;> ring

/-- Exchanging the spins exchanges the reported derivatives and leaves the energy. -/
theorem C87_spin_flip (v : Variant) (scaleFac n0 n1 s0 s1 s2 : ℝ) :
    let A := compute2 v scaleFac n0 n1 s0 s1 s2
    compute2 v scaleFac n1 n0 s2 s1 s0 = ⟨A.E, A.E_n1, A.E_n0, A.E_s2, A.E_s1, A.E_s0⟩ := by
  cases v with
  | x v => simp only [compute2, both]; rw [add_comm]
  | gllbsc => simp only [compute2, both]; rw [add_comm]
  | lb94 => simp only [compute2, both]; rw [add_comm]
  | c v =>
    simp only [compute2]
    rw [show n1 + n0 = n0 + n1 by ring, show (n1 - n0) / (n0 + n1) = -((n0 - n1) / (n0 + n1)) by ring, show s2 + 2 * s1 + s0 = s0 + 2 * s1 + s2 by ring,
      cPoint_flip]

/-! ### Bounds -/

/-- Gradients lower the exchange energy of PBE and PBEsol, but not below 1.804 times that of the uniform gas (the local
Lieb-Oxford bound). -/
theorem C87_exchange_bound (v : XVar) (hv : v = .pbe ∨ v = .pbesol) (n sigma rs : ℝ) (h : nCutoff ≤ n) (hs : 0 ≤ sigma) (hr : LDA.IsRadius rs n) :
    1.804 * LDA.diracExchange n < (compute1 (.x v) 1 n sigma).E ∧ (compute1 (.x v) 1 n sigma).E ≤ LDA.diracExchange n := by
  have hn : 0 < n := lt_of_lt_of_le (by norm_num [nCutoff]) h
  have hp := Real.pi_pos
  rw [(C87_energy 1 n sigma rs h hs hr).1 v (by rcases hv with rfl | rfl <;> simp)]
  have hd : LDA.diracExchange n < 0 := by
    have : 0 < (3 / Real.pi) ^ (1 / 3 : ℝ) * n ^ (4 / 3 : ℝ) := by positivity
    unfold LDA.diracExchange
    nlinarith
  have hq := sSquared_nonneg n sigma hs
  have key : ∀ mu : ℝ, 0 < mu → 1 ≤ pbeFactor mu (sSquared n sigma) ∧ pbeFactor mu (sSquared n sigma) < 1.804 := by
    intro mu hm
    generalize sSquared n sigma = q at *
    have h1 : 1 ≤ 1 + mu * q / (0.804 : ℝ) := by
      have : 0 ≤ mu * q / (0.804 : ℝ) := by positivity
      linarith
    have h2 : (0.804 : ℝ) / (1 + mu * q / 0.804) ≤ 0.804 := div_le_self (by norm_num) h1
    have h3 : 0 < (0.804 : ℝ) / (1 + mu * q / 0.804) := div_pos (by norm_num) (by linarith)
    unfold pbeFactor
    constructor
    · linarith
    · norm_num at h3 ⊢
      linarith
  rcases hv with rfl | rfl
  · obtain ⟨k1, k2⟩ := key 0.2195149727645171 (by norm_num)
    simp only [publishedX]
    constructor <;> nlinarith
  · obtain ⟨k1, k2⟩ := key (10 / 81) (by norm_num)
    simp only [publishedX]
    constructor <;> nlinarith

/-- Gradients raise the correlation energy of PBE and PBEsol above that of the uniform gas, but it stays negative, for every
polarisation. -/
theorem C87_correlation_bound (v : CVar) (hv : v = .pbe ∨ v = .pbesol) (n0 n1 s0 s1 s2 : ℝ) (h0 : 0 ≤ n0) (h1 : 0 ≤ n1) (h : nCutoff ≤ n0 + n1)
    (hs : 0 ≤ s0 + 2 * s1 + s2) :
    (LDA.compute2 (.corr .pwPrec) 1 n0 n1).E ≤ (compute2 (.c v) 1 n0 n1 s0 s1 s2).E ∧ (compute2 (.c v) 1 n0 n1 s0 s1 s2).E < 0 := by
  have hn : 0 < n0 + n1 := lt_of_lt_of_le (by norm_num [nCutoff]) h
  have z1 : -1 ≤ (n0 - n1) / (n0 + n1) := by rw [le_div_iff₀ hn]; linarith
  have z2 : (n0 - n1) / (n0 + n1) ≤ 1 := by rw [div_le_one hn]; linarith
  simp only [compute2, cPoint, LDA.compute2, LDA.corr2, if_neg (not_lt.2 h), one_mul]
  generalize (n0 - n1) / (n0 + n1) = z at *
  have hr := LDA.rsOf_pos _ hn
  have he := ec_neg .pwPrec (Or.inr rfl) _ z hr z1 z2
  have hg := gOf_pos z z1 z2
  have ht : 0 ≤ t2Sigma (n0 + n1) (gOf z) * (s0 + 2 * s1 + s2) := by
    refine mul_nonneg ?_ hs
    unfold t2Sigma
    have := Real.pi_pos
    positivity
  have key : ∀ beta : ℝ, 0 < beta → (LDA.eval .pwPrec (rsOf (n0 + n1)) z).e ≤ (pbeCorrelation beta 0 (rsOf (n0 + n1)) z (gOf z) (t2Sigma (n0 + n1) (gOf z) * (s0 + 2 * s1 + s2))).e ∧
      (pbeCorrelation beta 0 (rsOf (n0 + n1)) z (gOf z) (t2Sigma (n0 + n1) (gOf z) * (s0 + 2 * s1 + s2))).e < 0 := by
    intro beta hb
    obtain ⟨a, b⟩ := pw91H0_range pbeGamma beta (gOf z * (gOf z * gOf z)) _ _ ⟨pbeGamma_pos, hb, by positivity, ht, he⟩
    simp only [pbeCorrelation]
    exact ⟨by linarith, b⟩
  rcases hv with rfl | rfl
  · obtain ⟨a, b⟩ := key 0.06672455060314922 (by norm_num)
    exact ⟨mul_le_mul_of_nonneg_left a hn.le, mul_neg_of_pos_of_neg hn b⟩
  · obtain ⟨a, b⟩ := key 0.046 (by norm_num)
    exact ⟨mul_le_mul_of_nonneg_left a hn.le, mul_neg_of_pos_of_neg hn b⟩

/-! ### On a grid -/

/-- Without spin, as a functional of C74 (a derivative that is not a number is replaced by zero, which does not happen where the
functional is smooth). -/
def fn1 (v : Variant) (scaleFac : ℝ) : ExCorr.Fn 1 where
  e := fun x => (compute1 v scaleFac (x.n 0) (x.sigma 0)).E
  grad := fun x =>
    let r := compute1 v scaleFac (x.n 0) (x.sigma 0)
    ⟨fun _ => r.E_n.getD 0, ![r.E_sigma.getD 0, 0, 0], fun _ => 0, fun _ => 0⟩

/-- With spin. -/
def fn2 (v : Variant) (scaleFac : ℝ) : ExCorr.Fn 2 where
  e := fun x => (compute2 v scaleFac (x.n 0) (x.n 1) (x.sigma 0) (x.sigma 1) (x.sigma 2)).E
  grad := fun x =>
    let r := compute2 v scaleFac (x.n 0) (x.n 1) (x.sigma 0) (x.sigma 1) (x.sigma 2)
    ⟨![r.E_n0.getD 0, r.E_n1.getD 0], ![r.E_s0.getD 0, r.E_s1.getD 0, r.E_s2.getD 0], fun _ => 0, fun _ => 0⟩

theorem fn1_consistent (v : Variant) (scaleFac : ℝ) (x : ExCorr.Pt 1) (hp : x.Possible) (hs : Smooth1 v (x.n 0) (x.sigma 0)) :
    (fn1 v scaleFac).Consistent x := by
  intro c c' hc hcp hn hsig _ _
  obtain ⟨dn, ds, e1, e2, h⟩ := C87_potential v scaleFac _ _ hp.1 hs
  refine (h (fun t => (c t).n 0) (fun t => (c t).sigma 0) (c'.n 0) (c'.sigma 0) (by rw [hc]) (by rw [hc]) (fun t => (hcp t).1) (hn 0) (hsig 0)).congr_deriv ?_
  simp [fn1, e1, e2, Fin.sum_univ_three]

theorem fn2_consistent (v : Variant) (scaleFac : ℝ) (x : ExCorr.Pt 2) (hp : x.Possible)
    (hs : Smooth2 v (x.n 0) (x.n 1) (x.sigma 0) (x.sigma 2)) : (fn2 v scaleFac).Consistent x := by
  intro c c' hc hcp hn hsig _ _
  obtain ⟨d0, d1, f0, f1, f2, e1, e2, e3, e4, e5, h⟩ := C87_spin_potential v scaleFac _ _ _ (x.sigma 1) _ hp.1 hp.2.1 hp.2.2 hs
  refine (h (fun t => (c t).n 0) (fun t => (c t).n 1) (fun t => (c t).sigma 0) (fun t => (c t).sigma 1) (fun t => (c t).sigma 2) (c'.n 0) (c'.n 1)
    (c'.sigma 0) (c'.sigma 1) (c'.sigma 2) (by rw [hc]) (by rw [hc]) (by rw [hc]) (by rw [hc]) (by rw [hc]) (fun t => (hcp t).1) (fun t => (hcp t).2.1)
    (hn 0) (hn 1) (hsig 0) (hsig 1) (hsig 2)).congr_deriv ?_
  simp [fn2, e1, e2, e3, e4, e5, Fin.sum_univ_two, Fin.sum_univ_three]
  ring

open ExCorr Box in
/-- A calculation without spin, with any list of these functionals, on any number of processes: the potential returned on
every process is the derivative of the energy with respect to the density at every grid point. -/
theorem C87_grid (g : Grid) (vs : List (Variant × ℝ)) (P p : Nat) (hP : p < P) (n dn : Fin 1 → Field)
    (hpos : ∀ j < nr g.S, 0 < n 0 j)
    (hs : ∀ v ∈ vs, ∀ j < nr g.S, Smooth1 v.1 (n 0 j) (sigmaAt g .unpolarized P n 0 j)) :
    HasDerivAt (fun t => energy g .unpolarized (vs.map fun v => fn1 v.1 v.2) P (moved n dn t) (fun _ _ => 0))
      (g.dV * ∑ j ∈ Finset.range (nr g.S), Vxc g .unpolarized (vs.map fun v => fn1 v.1 v.2) P p n (fun _ _ => 0) 0 j * dn 0 j) 0 := by
  have h := C74_potential_partial g .unpolarized (vs.map fun v => fn1 v.1 v.2) P p hP (Or.inl (by simp)) n (fun _ _ => 0) dn (fun _ _ => 0)
    (fun s j hj => by rw [Subsingleton.elim s 0]; exact hpos j hj)
    (fun f hf j hj => by
      obtain ⟨v, hv, rfl⟩ := List.mem_map.1 hf
      have e : (ptAt g .unpolarized P n (fun _ _ => 0) j).n 0 = n 0 j := max_eq_left (hpos j hj).le
      refine fn1_consistent v.1 v.2 _ (ptAt_possible g .unpolarized P (by omega) _ _ j) ?_
      rw [e]
      exact hs v hv j hj)
  have e0 : ∀ t : ℝ, moved (fun (_ : Fin (nIn .unpolarized)) (_ : Nat) => (0 : ℝ)) (fun _ _ => 0) t = fun _ _ => 0 := by
    intro t; funext s j; simp [moved]
  simp only [e0, mul_zero, add_zero] at h
  refine h.congr_deriv ?_
  congr 1
  exact Finset.sum_congr rfl fun j _ => Fin.sum_univ_one _

open ExCorr Box in
/-- The same with collinear spins. -/
theorem C87_spin_grid (g : Grid) (vs : List (Variant × ℝ)) (P p : Nat) (hP : p < P) (n dn : Fin 2 → Field)
    (hpos : ∀ s, ∀ j < nr g.S, 0 < n s j)
    (hs : ∀ v ∈ vs, ∀ j < nr g.S, Smooth2 v.1 (n 0 j) (n 1 j) (sigmaAt g .polarized P n 0 j) (sigmaAt g .polarized P n 2 j)) :
    HasDerivAt (fun t => energy g .polarized (vs.map fun v => fn2 v.1 v.2) P (moved n dn t) (fun _ _ => 0))
      (g.dV * ∑ j ∈ Finset.range (nr g.S), ∑ s, Vxc g .polarized (vs.map fun v => fn2 v.1 v.2) P p n (fun _ _ => 0) s j * dn s j) 0 := by
  have h := C74_potential_partial g .polarized (vs.map fun v => fn2 v.1 v.2) P p hP (Or.inl (by simp)) n (fun _ _ => 0) dn (fun _ _ => 0)
    (fun s j hj => hpos s j hj)
    (fun f hf j hj => by
      obtain ⟨v, hv, rfl⟩ := List.mem_map.1 hf
      have e : ∀ s, (ptAt g .polarized P n (fun _ _ => 0) j).n s = n s j := fun s => max_eq_left (hpos s j hj).le
      refine fn2_consistent v.1 v.2 _ (ptAt_possible g .polarized P (by omega) _ _ j) ?_
      rw [e, e]
      exact hs v hv j hj)
  have e0 : ∀ t : ℝ, moved (fun (_ : Fin (nIn .polarized)) (_ : Nat) => (0 : ℝ)) (fun _ _ => 0) t = fun _ _ => 0 := by
    intro t; funext s j; simp [moved]
  simp only [e0, mul_zero, add_zero] at h
  exact h

open ExCorr Box in
/-- PBE for one cosine wave on a background. -/
example : (∀ j < nr line4.S, 0 < (![fun j => 6 + wave j] : Fin 1 → Field) 0 j) ∧
    ∀ v ∈ [(Variant.x .pbe, (1 : ℝ)), (Variant.c .pbe, 1)], ∀ j < nr line4.S,
      Smooth1 v.1 ((![fun j => 6 + wave j] : Fin 1 → Field) 0 j) (sigmaAt line4 .unpolarized 3 ![fun j => 6 + wave j] 0 j) := by
  have hw : ∀ j < nr line4.S, 5 ≤ (![fun j => 6 + wave j] : Fin 1 → Field) 0 j := by
    intro j hj
    have hj : j < 4 := by simpa [line4, nr] using hj
    show 5 ≤ 6 + wave j
    interval_cases j <;> norm_num [wave]
  have hc : nCutoff = 1e-16 := rfl
  refine ⟨fun j hj => by linarith [hw j hj], fun v hv j hj => ?_⟩
  have h5 := hw j hj
  have hne : (![fun j => 6 + wave j] : Fin 1 → Field) 0 j ≠ nCutoff := by
    rw [hc]
    intro h
    rw [h] at h5
    norm_num at h5
  simp only [List.mem_cons, List.not_mem_nil, or_false] at hv
  rcases hv with rfl | rfl
  · exact ⟨by linarith, hne, by simp⟩
  · exact ⟨by linarith, hne⟩

/-! ### Where the property fails -/

/-- The screened functional of HSE: where the gradient vanishes the reported potential is not a number, although the energy
is. -/
theorem C87_screened_violation (scaleFac n : ℝ) (h : nCutoff ≤ n) :
    (compute1 (.x .wpbe) scaleFac n 0).E_n = none ∧ (compute1 (.x .wpbe) scaleFac n 0).E_sigma = none := by
  have hr : rescale 0 = (0, 1) := by
    simp only [rescale, if_neg (show ¬ (0 : ℝ) > 225 by norm_num), if_neg (show ¬ (0 : ℝ) > 1 by norm_num)]
  have hh : (holeH 0).1 = 0 := by simp [holeH]
  have hg : ∀ f, (holeG 0 f).2.1 = none := by
    intro f; simp [holeG]
  have hx : ∀ rs, (evalX .wpbe rs 0).e_s2 = none := by
    intro rs
    simp only [evalX, wpbeExchange, hr, hh, hg, Option.map_none]
  simp only [compute1, xTurn, mul_one, if_neg (not_lt.2 h), mul_zero, hx, Option.map_none, and_self]

/-- The reduced gradient that functional uses jumps down where it starts to be limited. -/
theorem C87_screened_limit_violation : ¬ ContinuousAt (fun s2 => (rescale s2).1) 1 := by
  intro hc
  -- the limit from above
  have hq : ContinuousAt (fun s2 : ℝ => (Real.sqrt s2 - Real.log (1 + Real.exp (Real.sqrt s2 - sMax))) *
      (Real.sqrt s2 - Real.log (1 + Real.exp (Real.sqrt s2 - sMax)))) 1 := by
    have h1 : ContinuousAt (fun s2 : ℝ => Real.sqrt s2 - Real.log (1 + Real.exp (Real.sqrt s2 - sMax))) 1 := by
      refine ContinuousAt.sub Real.continuous_sqrt.continuousAt (ContinuousAt.log ?_ (by positivity))
      fun_prop
    exact h1.mul h1
  have e : (fun s2 => (rescale s2).1) =ᶠ[𝓝[>] 1] fun s2 : ℝ => (Real.sqrt s2 - Real.log (1 + Real.exp (Real.sqrt s2 - sMax))) *
      (Real.sqrt s2 - Real.log (1 + Real.exp (Real.sqrt s2 - sMax))) := by
    have : Set.Ioo (1 : ℝ) 225 ∈ 𝓝[>] (1 : ℝ) := Ioo_mem_nhdsGT (by norm_num)
    filter_upwards [this] with s hs
    simp only [rescale, if_neg (not_lt.2 hs.2.le), if_pos (show s > 1 from hs.1)]
  have l1 := (hc.tendsto.mono_left (nhdsWithin_le_nhds (s := Set.Ioi 1))).congr' e
  have l2 := hq.tendsto.mono_left (nhdsWithin_le_nhds (s := Set.Ioi (1 : ℝ)))
  have := tendsto_nhds_unique l1 l2
  have hr : (rescale 1).1 = 1 := by
    simp only [rescale, if_neg (show ¬ (1 : ℝ) > 225 by norm_num), if_neg (lt_irrefl (1 : ℝ))]
  rw [hr, Real.sqrt_one] at this
  have hl : 0 < Real.log (1 + Real.exp (1 - sMax)) := Real.log_pos (by linarith [Real.exp_pos (1 - sMax)])
  have hl2 : Real.log (1 + Real.exp (1 - sMax)) ≤ 1 := by
    have h1 := Real.log_le_sub_one_of_pos (show 0 < 1 + Real.exp (1 - sMax) by positivity)
    have h2 : Real.exp (1 - sMax) ≤ 1 := Real.exp_le_one_iff.2 (by norm_num [sMax])
    linarith
  nlinarith

/-- LB94 is a potential without an energy, but only GLLB-sc is marked as such: its energy is zero everywhere while its
potential is not. -/
theorem C87_lb94_violation : hasEnergy .lb94 = true ∧ (∀ scaleFac n sigma, (compute1 .lb94 scaleFac n sigma).E = 0) ∧
    ∃ n sigma v, (compute1 .lb94 1 n sigma).E_n = some v ∧ v < 0 := by
  refine ⟨rfl, fun sf n sigma => ?_, 1, 1, _, by
    simp only [compute1, lb94Turn, if_neg (show ¬ (1 : ℝ) * 1 < nCutoff by norm_num [nCutoff])]; rfl, ?_⟩
  · simp only [compute1, lb94Turn]
    split_ifs <;> rfl
  · simp only [Real.sqrt_one, mul_one, Real.one_rpow, div_one, one_mul]
    have h : 0 ≤ Real.arsinh 1 := Real.arsinh_nonneg_iff.2 zero_le_one
    have hd : 0 < 1 + 3 * 0.05 * Real.arsinh 1 := by positivity
    exact div_neg_of_neg_of_pos (by norm_num) hd

end
end Jdftx.GGA
