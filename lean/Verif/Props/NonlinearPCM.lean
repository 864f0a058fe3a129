import Verif.Lemmas.NonlinearPCM
import Verif.Props.Spline

/-!
# C80: nonlinear response of solvent dipoles and ions
-/
namespace Jdftx.NPCM
open Filter Topology
open Cavity (dot3)
noncomputable section

/-! ### Specification -/

/-- Parameters of an electrolyte accepted by the constructor: packing fractions of cations and anions, not both zero, with sum below one. -/
def Ions (m : Screening) : Prop := 0 ≤ m.x0plus ∧ 0 ≤ m.x0minus ∧ 0 < m.x0 ∧ m.x0 < 1

/-- Excess free energy per particle of the hard-sphere mixture at packing fraction `x`, relative to the bulk at `x0` (closed form). -/
def hardSphere (x0 x : ℝ) : ℝ := 2 / x0 * ((x - x0) / ((1 - x) * (1 - x0))) ^ 2

/-- Ionic equilibrium at dimensionless potential `V`: each species has Boltzmann density in potential and hard-sphere repulsion, and the
packing fraction is the sum of volume fractions of the species. -/
def Equilibrium (m : Screening) (V x : ℝ) : Prop :=
  x = m.x0plus * Real.exp (-V - deriv (hardSphere m.x0) x * m.x0plus) + m.x0minus * Real.exp (V - deriv (hardSphere m.x0) x * m.x0minus)

/-- Dipole correlation parameter in the range for which polarisation increases with field. -/
def Dipoles (d : Dielectric) : Prop := 0 ≤ d.alpha ∧ d.alpha < 3

theorem f_eq (m : Screening) (x : ℝ) : m.f x = hardSphere m.x0 x := by
  unfold Screening.f Screening.comb hardSphere
  rw [show (x - m.x0) / ((1 - x) * (1 - m.x0)) = (x - m.x0) * (1 / (1 - x)) * (1 / (1 - m.x0)) by
    rw [div_eq_mul_inv, mul_inv]; simp only [one_div]; ring]
  ring

theorem f_x_deriv (m : Screening) (hm : Ions m) (x : ℝ) (hx : x < 1) : deriv (hardSphere m.x0) x = m.f_x x := by
  have : hardSphere m.x0 = m.f := funext fun x => (f_eq m x).symm
  rw [this]
  exact (f_deriv m x hx.ne hm.2.2.2.ne).deriv

theorem equilibrium_iff (m : Screening) (hm : Ions m) (V x : ℝ) (hx : x < 1) : Equilibrium m V x ↔ m.rootFunc x V = 0 := by
  unfold Equilibrium Screening.rootFunc
  rw [f_x_deriv m hm x hx]
  constructor <;> intro h <;> linarith

/-! ### Ions -/

/-- **C80 (parameters).** The constructor stops the program exactly when the bulk packing fraction reaches one. -/
theorem C80_limit (linear : Bool) (T Nion Zion Vp Vm : ℝ) (hN : 0 < Nion) (hp : 0 ≤ Vp) (hm : 0 ≤ Vm) (h : 0 < Vp + Vm) :
    (1 ≤ Nion * (Vp + Vm) → Screening.mk' linear T Nion Zion Vp Vm = .error .die) ∧
    (Nion * (Vp + Vm) < 1 → ∃ m, Screening.mk' linear T Nion Zion Vp Vm = .ok m ∧ Ions m ∧ m.x0 = Nion * (Vp + Vm)) := by
  constructor
  · intro h1; unfold Screening.mk'; rw [if_pos (by linarith)]
  · intro h1
    refine ⟨_, by unfold Screening.mk'; rw [if_neg (by linarith)], ⟨by positivity, by positivity, ?_, ?_⟩, ?_⟩
    · show 0 < Nion * Vp + Nion * Vm
      have := mul_pos hN h; linarith
    · show Nion * Vp + Nion * Vm < 1; linarith
    · show Nion * Vp + Nion * Vm = _; ring

example : ∃ m, Screening.mk' false 1 (1/2) 1 (1/2) (1/4) = .ok m ∧ Ions m ∧ m.x0 = 1/2 * (1/2 + 1/4) :=
  (C80_limit false 1 (1/2) 1 (1/2) (1/4) (by norm_num) (by norm_num) (by norm_num) (by norm_num)).2 (by norm_num)

/-- **C80 (packing fraction).** For every electrolyte and every potential, the search for the packing fraction ends, and its result lies
strictly between 0 and 1, within 1e-13 of an equilibrium. -/
theorem C80_packing (m : Screening) (hm : Ions m) (V : ℝ) :
    ∃ n x, (∀ fuel ≥ n, m.x_from_V fuel V = some x) ∧ 0 < x ∧ x < 1 ∧
      ∃ r, 0 < r ∧ r < 1 ∧ Equilibrium m V r ∧ |x - r| ≤ 1e-13 := by
  obtain ⟨n, x, r, h1, h2, h3, h4, h5, h6, h7⟩ := x_from_V_ok m hm.2.2.1 hm.2.2.2 hm.1 hm.2.1 V
  exact ⟨n, x, h1, h2, h3, r, h4, h5, (equilibrium_iff m hm V r h5).2 h6, h7⟩

/-- **C80 (unique equilibrium).** Up to bulk packing fraction 1/3 there is only one equilibrium, so the result approximates it. -/
theorem C80_unique (m : Screening) (hm : Ions m) (h3 : m.x0 ≤ 1 / 3) (V r r' : ℝ) (hr : 0 < r) (hr1 : r < 1) (hr' : 0 < r') (hr1' : r' < 1)
    (e : Equilibrium m V r) (e' : Equilibrium m V r') : r = r' := by
  rw [equilibrium_iff m hm V r hr1] at e
  rw [equilibrium_iff m hm V r' hr1'] at e'
  rcases lt_trichotomy r r' with h | h | h
  · have := rootFunc_strictMono m hm.2.2.1 h3 hm.1 hm.2.1 V r r' hr.le h hr1'; linarith
  · exact h
  · have := rootFunc_strictMono m hm.2.2.1 h3 hm.1 hm.2.1 V r' r hr'.le h hr1; linarith

/-- **C80 (zero potential).** At zero potential the result is exactly the bulk packing fraction, and the energy is zero. -/
theorem C80_bulk (m : Screening) (hm : Ions m) (fuel : Nat) : m.x_from_V fuel 0 = some m.x0 ∧ m.energy m.x0 0 = 0 := by
  have fx : m.f_x m.x0 = 0 := by simp [Screening.f_x, Screening.comb]
  have r0 : m.rootFunc m.x0 0 = 0 := by
    unfold Screening.rootFunc; rw [fx]; simp [Screening.x0]
  constructor
  · have w1 : ∀ fuel, whileF (fun x => m.rootFunc x 0 > 0) (fun x => x * 0.5) fuel m.x0 = some m.x0 := by
      intro fuel; cases fuel <;> simp [whileF, r0]
    have w2 : ∀ fuel, whileF (fun x => m.rootFunc x 0 < 0) (fun x => 0.5 * (1 + x)) fuel m.x0 = some m.x0 := by
      intro fuel; cases fuel <;> simp [whileF, r0]
    unfold Screening.x_from_V
    rw [w1]
    show (whileF (fun x => m.rootFunc x 0 < 0) (fun x => 0.5 * (1 + x)) fuel m.x0).bind _ = _
    rw [w2]
    show bisect (fun x => m.rootFunc x 0) 0 (0.5 * (m.x0 + m.x0) * 1e-13) fuel m.x0 m.x0 = _
    have hp := hm.2.2.1
    have hc : ¬ (m.x0 - m.x0 > 0.5 * (m.x0 + m.x0) * 1e-13) := by
      have : 0 < 0.5 * (m.x0 + m.x0) * 1e-13 := by positivity
      rw [sub_self]; exact not_lt.2 this.le
    unfold bisect
    have : 0.5 * (m.x0 + m.x0) = m.x0 := by ring
    cases fuel <;> (simp only [whileF]; rw [if_neg hc]; simp [this])
  · unfold Screening.energy; rw [fx]; simp [Screening.f, Screening.comb]; norm_num

/-- **C80 (charge).** The rate of change of the ionic energy with potential is the difference of densities of anions and cations (in units of the
bulk density): along any differentiable branch of equilibria the change of packing fraction does not contribute. -/
theorem C80_charge (m : Screening) (hm : Ions m) (x : ℝ → ℝ) (V x' : ℝ) (hx : HasDerivAt x x' V) (h1 : x V < 1)
    (heq : Equilibrium m V (x V)) :
    HasDerivAt (fun V => m.energy (x V) V)
      (Real.exp (V - deriv (hardSphere m.x0) (x V) * m.x0minus) - Real.exp (-V - deriv (hardSphere m.x0) (x V) * m.x0plus)) V := by
  rw [equilibrium_iff m hm V _ h1] at heq
  rw [f_x_deriv m hm _ h1]
  have e1 : 1 - x V ≠ 0 := by linarith
  obtain ⟨g, hg⟩ : ∃ g, HasDerivAt m.f_x g (x V) := by
    have : DifferentiableAt ℝ m.f_x (x V) := by
      unfold Screening.f_x Screening.comb
      fun_prop (disch := exact e1)
    exact ⟨_, this.hasDerivAt⟩
  have hfx : HasDerivAt (fun V => m.f_x (x V)) (g * x') V := hg.comp V hx
  have hf : HasDerivAt (fun V => m.f (x V)) (m.f_x (x V) * x') V := (f_deriv m (x V) h1.ne hm.2.2.2.ne).comp V hx
  have a := ((hasDerivAt_id V).sub (hfx.mul_const m.x0minus)).exp
  have b := (((hasDerivAt_id V).neg).sub (hfx.mul_const m.x0plus)).exp
  have := (((a.add b).add (hfx.mul hx)).sub hf).sub_const 2
  refine this.congr_deriv ?_
  unfold Screening.rootFunc at heq
  simp only [id, Pi.sub_apply, Pi.neg_apply]
  have hxe : x V = m.x0plus * Real.exp (-V - m.f_x (x V) * m.x0plus) + m.x0minus * Real.exp (V - m.f_x (x V) * m.x0minus) := by linarith
  have : g * x' * x V = g * x' * (m.x0plus * Real.exp (-V - m.f_x (x V) * m.x0plus) + m.x0minus * Real.exp (V - m.f_x (x V) * m.x0minus)) := by rw [← hxe]
  linear_combination this

/-- **C80 (sign of the energy).** Up to bulk packing fraction 1/2 the energy is not negative, so every entry of the table lies in [0, 1]. -/
theorem C80_positive (m : Screening) (hm : Ions m) (h2 : m.x0 ≤ 1 / 2) (x V : ℝ) (hx : 0 < x) (h1 : x < 1) :
    0 ≤ m.energy x V ∧ 0 < 1 / (1 + m.energy x V) ∧ 1 / (1 + m.energy x V) ≤ 1 := by
  have key : 0 ≤ m.energy x V := by
    unfold Screening.energy
    have a := Real.add_one_le_exp (V - m.f_x x * m.x0minus)
    have b := Real.add_one_le_exp (-V - m.f_x x * m.x0plus)
    have hx0 := hm.2.2.1
    have hx1 := hm.2.2.2
    have u : 0 < 1 - x := by linarith
    have v : 0 < 1 - m.x0 := by linarith
    have c : m.f_x x * (x - m.x0) - m.f x = 2 / m.x0 * ((x - m.x0) ^ 2 / ((1 - x) ^ 3 * (1 - m.x0) ^ 2)) * (1 - 2 * m.x0 + x) := by
      rw [f_x_eq m x h1.ne hx1.ne, f_eq]
      unfold hardSphere
      field_simp; ring
    have : 0 ≤ m.f_x x * (x - m.x0) - m.f x := by
      rw [c]
      exact mul_nonneg (by positivity) (by linarith)
    have hx0' : m.x0 = m.x0plus + m.x0minus := rfl
    rw [hx0'] at this
    nlinarith
  refine ⟨key, by positivity, ?_⟩
  rw [div_le_one (by linarith)]; linarith

/-- Concrete electrolyte meeting the hypotheses. -/
def salt : Screening := ⟨false, 1, 1, 1/10, 1/20⟩
theorem salt_ok : Ions salt ∧ salt.x0 ≤ 1/3 := by
  unfold Ions salt Screening.x0; norm_num

example : ∃ n x, (∀ fuel ≥ n, salt.x_from_V fuel 3 = some x) ∧ 0 < x ∧ x < 1 ∧ ∃ r, 0 < r ∧ r < 1 ∧ Equilibrium salt 3 r ∧ |x - r| ≤ 1e-13 :=
  C80_packing salt salt_ok.1 3
example : 0 ≤ salt.energy (3/10) 2 := (C80_positive salt salt_ok.1 (by linarith [salt_ok.2]) (3/10) 2 (by norm_num) (by norm_num)).1

example : HasDerivAt (fun V => salt.energy (salt.x0 + V) V) (Real.exp (0 - deriv (hardSphere salt.x0) (salt.x0 + 0) * salt.x0minus)
    - Real.exp (-0 - deriv (hardSphere salt.x0) (salt.x0 + 0) * salt.x0plus)) 0 := by
  have h1 : salt.x0 + 0 < 1 := by have := salt_ok.1.2.2.2; linarith
  refine C80_charge salt salt_ok.1 (fun V => salt.x0 + V) 0 1 (by simpa using (hasDerivAt_id (0 : ℝ)).const_add salt.x0) h1 ?_
  rw [equilibrium_iff salt salt_ok.1 0 _ h1]
  simp [Screening.rootFunc, Screening.f_x, Screening.comb, Screening.x0]

/-! ### Dipoles -/

/-- **C80 (dipole parameters).** For a polar solvent with `epsBulk > epsInf`, the constructor stops the program exactly when the
parameters imply negative correlation; otherwise the correlation parameter is in range. -/
theorem C80_correlation (linear : Bool) (T Nmol pMol epsBulk epsInf : ℝ) (hT : 0 < T) (hN : 0 < Nmol) (hp : pMol ≠ 0) (he : epsInf < epsBulk) :
    (3 * T * (epsBulk - epsInf) < 4 * Real.pi * Nmol * pMol ^ 2 → Dielectric.mk' linear T Nmol pMol epsBulk epsInf = .error .die) ∧
    (4 * Real.pi * Nmol * pMol ^ 2 ≤ 3 * T * (epsBulk - epsInf) → ∃ d, Dielectric.mk' linear T Nmol pMol epsBulk epsInf = .ok d ∧ Dipoles d) := by
  have hd : 0 < T * (epsBulk - epsInf) := mul_pos hT (by linarith)
  have hq : 0 < 4 * Real.pi * (Nmol * pMol) * pMol := by
    have : 4 * Real.pi * (Nmol * pMol) * pMol = 4 * Real.pi * Nmol * pMol ^ 2 := by ring
    rw [this]; have := Real.pi_pos; positivity
  have e : 4 * Real.pi * (Nmol * pMol) * pMol = 4 * Real.pi * Nmol * pMol ^ 2 := by ring
  have iff : 3 - 4 * Real.pi * (Nmol * pMol) * pMol / (T * (epsBulk - epsInf)) < 0 ↔ 3 * T * (epsBulk - epsInf) < 4 * Real.pi * Nmol * pMol ^ 2 := by
    rw [sub_neg, lt_div_iff₀ hd, e, mul_assoc 3 T]
  constructor
  · intro h
    unfold Dielectric.mk'
    simp only
    rw [if_neg hp, if_pos (iff.2 h)]
  · intro h
    have hn : ¬ (3 - 4 * Real.pi * (Nmol * pMol) * pMol / (T * (epsBulk - epsInf)) < 0) := fun hh => absurd (iff.1 hh) (not_lt.2 h)
    refine ⟨_, by unfold Dielectric.mk'; simp only; rw [if_neg hp, if_neg hn], not_lt.1 hn, ?_⟩
    show 3 - 4 * Real.pi * (Nmol * pMol) * pMol / (T * (epsBulk - epsInf)) < 3
    have := div_pos hq hd; linarith

/-- **C80 (effective field).** For every field, the search for the effective field ends; its result lies in an interval at whose ends
the equation is crossed, and whose relative width is at most 1.05e-13 / (1 - alpha/3). -/
theorem C80_field (d : Dielectric) (hd : Dipoles d) (x : ℝ) (hx : 0 < x) :
    ∃ n eps lo hi, (∀ fuel ≥ n, d.eps_from_x fuel x = some eps) ∧ x ≤ lo ∧ lo ≤ eps ∧ eps ≤ hi ∧
      hi - lo ≤ 1.05e-13 * (x / (1 - d.alpha / 3)) ∧ d.x_from_eps lo ≤ x ∧ x ≤ d.x_from_eps hi := by
  obtain ⟨n, eps, lo, hi, h1, h2, h3, h4, _, h6, h7, h8⟩ := eps_from_x_ok d hd.1 hd.2 x hx
  exact ⟨n, eps, lo, hi, h1, h2, h3, h4, h6, h7, h8⟩

/-- **C80 (polarisation).** Where the closed forms are used (effective field from 0.1 to 20, or linear response), the rate of change of the
dipole energy with the field is the polarisation: Langevin function of the effective field plus the molecular polarisability
(in units of density times dipole moment). -/
theorem C80_polarisation (d : Dielectric) (eps : ℝ → ℝ) (x eps' : ℝ) (he : HasDerivAt eps eps' x) (heq : ∀ᶠ x in 𝓝 x, d.x_from_eps (eps x) = x)
    (h0 : 0 < eps x) (hreg : d.linear ∨ (1e-1 < eps x ∧ eps x < 20)) :
    HasDerivAt (fun x => d.energy (eps x) x)
      (d.NT * ((if d.linear then eps x / 3 else Real.cosh (eps x) / Real.sinh (eps x) - 1 / eps x) + d.X * x)) x := by
  by_cases hl : d.linear
  · have e1 : ∀ e, d.frac e = 1 / 3 := fun e => by simp [Dielectric.frac, hl]
    have e2 : ∀ e, d.logsinch e = e * e * (1 / 6) := fun e => by simp [Dielectric.logsinch, hl]
    have hxx : HasDerivAt (fun x => eps x * (1 - d.alpha * (1 / 3))) 1 x := by
      refine (hasDerivAt_id x).congr_of_eventuallyEq ?_
      filter_upwards [heq] with y hy
      simpa [Dielectric.x_from_eps, e1] using hy
    have u := (he.mul_const (1 - d.alpha * (1 / 3))).unique hxx
    have hen : (fun x => d.energy (eps x) x) = fun x => d.NT * (eps x * eps x * (1 / 6) - 0.5 * d.alpha * (eps x * (1 / 3)) ^ 2 + 0.5 * d.X * (x * x)) := by
      funext y; simp [Dielectric.energy, e1, e2]
    rw [hen, if_pos hl]
    have := ((((he.mul he).mul_const (1 / 6)).sub (((he.mul_const (1 / 3)).pow 2).const_mul (0.5 * d.alpha))).add
      (((hasDerivAt_id x).mul (hasDerivAt_id x)).const_mul (0.5 * d.X))).const_mul d.NT
    refine this.congr_deriv ?_
    simp only [id, Nat.cast_ofNat, Nat.add_one_sub_one, pow_one]
    linear_combination (d.NT * eps x * (1 / 3)) * u
  · have hr : 1e-1 < eps x ∧ eps x < 20 := hreg.resolve_left hl
    obtain ⟨δ, hδ, _, hz⟩ := logsinch_deriv d (eps x) h0 (ne_of_gt hr.1) hr.2.ne
    rw [hz (Or.inr ⟨hr.1.le, hr.2⟩), add_zero] at hδ
    have s0 : Real.sinh (eps x) ≠ 0 := (Real.sinh_pos_iff.2 h0).ne'
    have e3 : ∀ e, 1e-1 < e → e * d.frac e = Real.cosh e / Real.sinh e - 1 / e := by
      intro e h
      have e0 : 0 < e := by linarith
      have : d.frac e = (e / Real.tanh e - 1) / (e * e) := by simp only [Dielectric.frac, hl, if_neg (not_lt.2 h.le)]; rfl
      rw [this, Real.tanh_eq_sinh_div_cosh]
      have := (Real.cosh_pos e).ne'
      have := (Real.sinh_pos_iff.2 e0).ne'
      field_simp
    have near : ∀ᶠ y in 𝓝 x, 1e-1 < eps y := he.continuousAt.eventually (lt_mem_nhds hr.1)
    -- derivative of the Langevin function
    obtain ⟨g, hg⟩ : ∃ g, HasDerivAt (fun e => Real.cosh e / Real.sinh e - 1 / e) g (eps x) := by
      have : DifferentiableAt ℝ (fun e => Real.cosh e / Real.sinh e - 1 / e) (eps x) := by
        have := h0.ne'
        fun_prop (disch := assumption)
      exact ⟨_, this.hasDerivAt⟩
    have hL : HasDerivAt (fun y => eps y * d.frac (eps y)) (g * eps') x := by
      refine (hg.comp x he).congr_of_eventuallyEq ?_
      filter_upwards [near] with y hy
      simp [e3 (eps y) hy]
    have hxx : HasDerivAt (fun y => eps y - d.alpha * (eps y * d.frac (eps y))) 1 x := by
      refine (hasDerivAt_id x).congr_of_eventuallyEq ?_
      filter_upwards [heq] with y hy
      have : eps y * (1 - d.alpha * d.frac (eps y)) = y := hy
      simp only [id]; linarith
    have u := (he.sub (hL.const_mul d.alpha)).unique hxx
    rw [if_neg hl, ← e3 _ hr.1]
    have := (((hδ.comp x he).sub ((hL.pow 2).const_mul (0.5 * d.alpha))).add
      (((hasDerivAt_id x).mul (hasDerivAt_id x)).const_mul (0.5 * d.X))).const_mul d.NT
    refine this.congr_deriv ?_
    simp only [id, Nat.cast_ofNat, Nat.add_one_sub_one, pow_one]
    linear_combination (d.NT * (eps x * d.frac (eps x))) * u


/-- A solvent without dipole correlations meeting the hypotheses, with its effective field. -/
def dipoles (linear : Bool) : Dielectric := ⟨linear, 1, 1, 0, 1⟩
example : HasDerivAt (fun x => (dipoles false).energy x x) (1 * (Real.cosh 2 / Real.sinh 2 - 1 / 2 + 1 * 2)) 2 := by
  have := C80_polarisation (dipoles false) id 2 1 (hasDerivAt_id 2) (Eventually.of_forall fun x => by simp [Dielectric.x_from_eps, dipoles])
    (by norm_num) (Or.inr ⟨by norm_num, by norm_num⟩)
  simpa [dipoles] using this

/-- **C80 (end of the table at zero field).** The first entry is the limit of energy over squared field as the effective field goes to zero. -/
theorem C80_zero_field (d : Dielectric) (hd : Dipoles d) (fuel : Nat) :
    ∃ s, d.sample fuel 0 = some s ∧ Tendsto (fun eps => d.energy eps (d.x_from_eps eps) / (d.x_from_eps eps * d.x_from_eps eps)) (𝓝[>] 0) (𝓝 s) := by
  refine ⟨_, by unfold Dielectric.sample; rw [if_pos rfl], ?_⟩
  have h3 := hd.2
  -- a common form of both branches near zero
  obtain ⟨A, B, hA, hB, A0, B0, ev⟩ : ∃ A B : ℝ → ℝ, Continuous A ∧ Continuous B ∧ A 0 = 1 / 6 ∧ B 0 = 1 / 3 ∧
      ∀ᶠ e in 𝓝[>] (0 : ℝ), d.logsinch e = e * e * A e ∧ d.frac e = B e := by
    by_cases hl : d.linear
    · exact ⟨fun _ => 1 / 6, fun _ => 1 / 3, continuous_const, continuous_const, rfl, rfl, Eventually.of_forall fun e => by
        simp [Dielectric.logsinch, Dielectric.frac, hl]⟩
    · refine ⟨fun e => 1 / 6 + e * e * (-1 / 180 + e * e * (1 / 2835)), fun e => 1 / 3 + e * e * (-1 / 45 + e * e * (2 / 945 + e * e * (-1 / 4725))),
        by fun_prop, by fun_prop, by norm_num, by norm_num, ?_⟩
      filter_upwards [nhdsWithin_le_nhds (isOpen_Iio.mem_nhds (show (0 : ℝ) < 1e-1 by norm_num))] with e he
      have he : e < 1e-1 := he
      constructor
      · simp only [Dielectric.logsinch, hl, if_pos he]; rfl
      · simp only [Dielectric.frac, hl, if_pos he]; rfl
  have lim : Tendsto (fun e => d.NT * ((A e - 0.5 * d.alpha * B e ^ 2) / (1 - d.alpha * B e) ^ 2 + 0.5 * d.X)) (𝓝[>] 0)
      (𝓝 (d.NT * ((A 0 - 0.5 * d.alpha * B 0 ^ 2) / (1 - d.alpha * B 0) ^ 2 + 0.5 * d.X))) := by
    refine Tendsto.mono_left (ContinuousAt.tendsto ?_) nhdsWithin_le_nhds
    have : (1 - d.alpha * B 0) ^ 2 ≠ 0 := by
      rw [B0]; apply pow_ne_zero; linarith
    fun_prop (disch := exact this)
  have val : d.NT * ((A 0 - 0.5 * d.alpha * B 0 ^ 2) / (1 - d.alpha * B 0) ^ 2 + 0.5 * d.X) = 0.5 * d.NT * (1 / (3 - d.alpha) + d.X) := by
    rw [A0, B0]
    have h1 : 3 - d.alpha ≠ 0 := by linarith
    have h2 : 1 - d.alpha * (1 / 3) = (3 - d.alpha) / 3 := by ring
    rw [h2]
    field_simp; ring
  rw [val] at lim
  refine lim.congr' ?_
  have near : ∀ᶠ e in 𝓝[>] (0 : ℝ), 1 - d.alpha * B e ≠ 0 := by
    have c : Tendsto (fun e => 1 - d.alpha * B e) (𝓝[>] 0) (𝓝 (1 - d.alpha * B 0)) :=
      (show Continuous fun e => 1 - d.alpha * B e by fun_prop).continuousAt.tendsto.mono_left nhdsWithin_le_nhds
    exact c.eventually_ne (by rw [B0]; linarith)
  filter_upwards [ev, near, self_mem_nhdsWithin] with e he hn hp
  have hp : 0 < e := hp
  unfold Dielectric.energy Dielectric.x_from_eps
  rw [he.1, he.2]
  have := hp.ne'
  field_simp

/-- **C80 (end of the table at infinite field).** The last entry is the limit of energy over squared field as the effective field grows. -/
theorem C80_infinite_field (d : Dielectric) (hd : Dipoles d) (hl : d.linear = false) (fuel : Nat) :
    ∃ s, d.sample fuel 1 = some s ∧ Tendsto (fun eps => d.energy eps (d.x_from_eps eps) / (d.x_from_eps eps * d.x_from_eps eps)) atTop (𝓝 s) := by
  refine ⟨_, by unfold Dielectric.sample; rw [if_neg one_ne_zero, if_pos rfl], ?_⟩
  have hb : 0 < 1 - d.alpha / 3 := by linarith [hd.2]
  -- everything except the last term is at most a multiple of eps
  have bound : ∀ᶠ e in atTop, |d.energy e (d.x_from_eps e) / (d.x_from_eps e * d.x_from_eps e) - 0.5 * d.NT * d.X|
      ≤ |d.NT| * ((2 + 0.5 * d.alpha) / (1 - d.alpha / 3) ^ 2) * (1 / e) := by
    filter_upwards [eventually_gt_atTop (20 : ℝ)] with e he
    have e0 : 0 < e := by linarith
    have hx := (x_from_eps_bounds d hd.1 e e0.le).1
    have hx0 : 0 < d.x_from_eps e := lt_of_lt_of_le (by positivity) hx
    have n1 : ¬ e < 1e-1 := not_lt.2 (by linarith)
    have n2 : ¬ e < 20 := not_lt.2 he.le
    have ls : d.logsinch e = e - Real.log (2 * e) := by simp only [Dielectric.logsinch, hl, if_neg n1, if_neg n2]; rfl
    have fr : d.frac e = (e / Real.tanh e - 1) / (e * e) := by simp only [Dielectric.frac, hl, if_neg n1]; rfl
    have s0 : 0 < Real.sinh e := Real.sinh_pos_iff.2 e0
    have l1 : 0 ≤ Real.log (2 * e) := Real.log_nonneg (by linarith)
    have l2 : Real.log (2 * e) ≤ 2 * e := by linarith [Real.log_le_sub_one_of_pos (show 0 < 2 * e by linarith)]
    have f0 : 0 ≤ e * d.frac e := mul_nonneg e0.le (frac_bounds d e e0.le).1
    have f1 : e * d.frac e ≤ 1 := by
      have : e * d.frac e = Real.cosh e / Real.sinh e - 1 / e := by
        rw [fr, Real.tanh_eq_sinh_div_cosh]
        have := (Real.cosh_pos e).ne'
        have := s0.ne'
        field_simp
      rw [this, sub_le_iff_le_add, div_le_iff₀ s0]
      have a : Real.cosh e = Real.sinh e + Real.exp (-e) := by rw [← Real.cosh_sub_sinh]; ring
      have b : Real.exp (-e) ≤ 1 := Real.exp_le_one_iff.2 (by linarith)
      have c : e ≤ Real.sinh e := Real.self_le_sinh_iff.2 e0.le
      have : (1 : ℝ) ≤ 1 / e * Real.sinh e := by rw [one_div, inv_mul_eq_div, le_div_iff₀ e0]; linarith
      rw [a]; linarith
    have eq : d.energy e (d.x_from_eps e) / (d.x_from_eps e * d.x_from_eps e) - 0.5 * d.NT * d.X
        = d.NT * (d.logsinch e - 0.5 * d.alpha * (e * d.frac e) ^ 2) / (d.x_from_eps e * d.x_from_eps e) := by
      unfold Dielectric.energy
      have := hx0.ne'
      field_simp; ring
    rw [eq, abs_div, abs_mul, abs_of_pos (mul_pos hx0 hx0), mul_div_assoc, mul_assoc |d.NT|]
    refine mul_le_mul_of_nonneg_left ?_ (abs_nonneg d.NT)
    have num : |d.logsinch e - 0.5 * d.alpha * (e * d.frac e) ^ 2| ≤ (2 + 0.5 * d.alpha) * e := by
      rw [ls, abs_le]
      have q0 : 0 ≤ (e * d.frac e) ^ 2 := by positivity
      have q1 : (e * d.frac e) ^ 2 ≤ 1 := by nlinarith
      have := hd.1
      constructor <;> nlinarith
    have den : (e * (1 - d.alpha / 3)) * (e * (1 - d.alpha / 3)) ≤ d.x_from_eps e * d.x_from_eps e := mul_self_le_mul_self (by positivity) hx
    calc |d.logsinch e - 0.5 * d.alpha * (e * d.frac e) ^ 2| / (d.x_from_eps e * d.x_from_eps e)
        ≤ ((2 + 0.5 * d.alpha) * e) / ((e * (1 - d.alpha / 3)) * (e * (1 - d.alpha / 3))) := by
          have := hd.1
          exact div_le_div₀ (by positivity) num (by positivity) den
      _ = (2 + 0.5 * d.alpha) / (1 - d.alpha / 3) ^ 2 * (1 / e) := by
          have := hb.ne'
          field_simp
  have z : Tendsto (fun e : ℝ => |d.NT| * ((2 + 0.5 * d.alpha) / (1 - d.alpha / 3) ^ 2) * (1 / e)) atTop (𝓝 0) := by
    have := (tendsto_inv_atTop_zero (𝕜 := ℝ)).const_mul (|d.NT| * ((2 + 0.5 * d.alpha) / (1 - d.alpha / 3) ^ 2))
    simpa [one_div] using this
  rw [tendsto_iff_norm_sub_tendsto_zero]
  exact squeeze_zero' (Eventually.of_forall fun _ => norm_nonneg _) (by simpa [Real.norm_eq_abs] using bound) z

example : Dipoles (dipoles false) := by unfold Dipoles dipoles; norm_num

/-! ### The options for linear response -/

/-- **C80 (linear dielectric).** With linear response the energy over squared field is the same constant at every field. -/
theorem C80_linear (d : Dielectric) (hd : Dipoles d) (hl : d.linear = true) (eps : ℝ) (he : eps ≠ 0) :
    d.energy eps (d.x_from_eps eps) / (d.x_from_eps eps * d.x_from_eps eps) = 0.5 * d.NT * (1 / (3 - d.alpha) + d.X) := by
  have e1 : d.frac eps = 1 / 3 := by simp [Dielectric.frac, hl]
  have e2 : d.logsinch eps = eps * eps * (1 / 6) := by simp [Dielectric.logsinch, hl]
  unfold Dielectric.energy Dielectric.x_from_eps
  rw [e1, e2]
  have h1 : 3 - d.alpha ≠ 0 := by linarith [hd.2]
  have h2 : 1 - d.alpha * (1 / 3) = (3 - d.alpha) / 3 := by ring
  rw [h2]
  field_simp; ring

/-- **C80 (violation, linear dielectric).** The last entry of the table does not have this value: the limit for nonlinear response is
stored also when linear response is selected, so the interpolated response is not linear. -/
theorem C80_linear_dielectric_violation (d : Dielectric) (hd : Dipoles d) (hN : d.NT ≠ 0) (fuel : Nat) :
    ∃ s, d.sample fuel 1 = some s ∧ s ≠ 0.5 * d.NT * (1 / (3 - d.alpha) + d.X) := by
  refine ⟨_, by unfold Dielectric.sample; rw [if_neg one_ne_zero, if_pos rfl], ?_⟩
  intro h
  have h1 : 0 < 1 / (3 - d.alpha) := by
    have : 0 < 3 - d.alpha := by linarith [hd.2]
    positivity
  have : d.NT * (1 / (3 - d.alpha)) = 0 := by linarith
  rcases mul_eq_zero.1 this with h | h
  · exact hN h
  · exact absurd h h1.ne'

/-- **C80 (violation, linear screening).** The table does not depend on the option for linear screening, and (for ions of equal size
with bulk packing fraction up to 1/2) the tabulated energy is not a quadratic function of the potential. -/
theorem C80_linear_screening_violation (NT ZbyT a : ℝ) (ha : 0 < a) (h4 : a ≤ 1 / 4) :
    (∀ fuel, Screening.table ⟨true, NT, ZbyT, a, a⟩ fuel = Screening.table ⟨false, NT, ZbyT, a, a⟩ fuel) ∧
    ¬∃ c, ∀ V x, 0 < x → x < 1 → Equilibrium ⟨true, NT, ZbyT, a, a⟩ V x → Screening.energy ⟨true, NT, ZbyT, a, a⟩ x V = c * V ^ 2 := by
  refine ⟨fun _ => rfl, ?_⟩
  rintro ⟨c, hc⟩
  obtain ⟨m, hmdef⟩ : ∃ m : Screening, m = ⟨true, NT, ZbyT, a, a⟩ := ⟨_, rfl⟩
  rw [← hmdef] at hc
  have hp : m.x0plus = a := by rw [hmdef]
  have hq : m.x0minus = a := by rw [hmdef]
  have hx0 : m.x0 = 2 * a := by unfold Screening.x0; rw [hp, hq]; ring
  have hm : Ions m := by unfold Ions; rw [hp, hq, hx0]; exact ⟨ha.le, ha.le, by linarith, by linarith⟩
  -- the energy vanishes only at zero potential
  have pos : ∀ V x, V ≠ 0 → 0 < x → x < 1 → 0 < m.energy x V := by
    intro V x hV h0 h1
    have hxx := (C80_positive m hm (by rw [hx0]; linarith) x 0 h0 h1).1
    have hf : 0 ≤ m.f_x x * x - m.f x - m.f_x x * (2 * a) := by
      have u : 0 < 1 - x := by linarith
      have v : 0 < 1 - m.x0 := by rw [hx0]; linarith
      have w : 0 < m.x0 := hm.2.2.1
      have e : m.f_x x * (x - m.x0) - m.f x = 2 / m.x0 * ((x - m.x0) ^ 2 / ((1 - x) ^ 3 * (1 - m.x0) ^ 2)) * (1 - 2 * m.x0 + x) := by
        rw [f_x_eq m x h1.ne hm.2.2.2.ne, f_eq]
        unfold hardSphere
        field_simp; ring
      have : 0 ≤ m.f_x x * (x - m.x0) - m.f x := by
        rw [e]; exact mul_nonneg (by positivity) (by rw [hx0]; linarith)
      rw [hx0] at this; linarith
    unfold Screening.energy
    rw [hp, hq]
    have b := Real.add_one_le_exp (-V - m.f_x x * a)
    have a' := Real.add_one_le_exp (V - m.f_x x * a)
    by_cases hz : V - m.f_x x * a = 0
    · have : -V - m.f_x x * a ≠ 0 := fun h => hV (by linarith)
      have b := Real.add_one_lt_exp this
      linarith
    · have a' := Real.add_one_lt_exp hz
      linarith
  -- and grows at most linearly
  have growth : ∀ V x, 0 ≤ V → 0 < x → x < 1 → Equilibrium m V x → m.energy x V ≤ 1 / a + V / a := by
    intro V x hV h0 h1 he
    rw [equilibrium_iff m hm V x h1] at he
    unfold Screening.rootFunc at he
    rw [hp, hq] at he
    have sum : Real.exp (V - m.f_x x * a) + Real.exp (-V - m.f_x x * a) = x / a := by
      rw [eq_div_iff ha.ne']; linarith
    have hfx : m.f_x x ≤ V / a := by
      by_contra h
      push Not at h
      have h' : V < m.f_x x * a := by rwa [div_lt_iff₀ ha] at h
      have e1 : Real.exp (V - m.f_x x * a) < 1 := by rw [← Real.exp_zero]; exact Real.exp_lt_exp.2 (by linarith)
      have e2 : Real.exp (-V - m.f_x x * a) ≤ 1 := Real.exp_le_one_iff.2 (by linarith)
      have hlt : x / a < 2 := by linarith
      rw [div_lt_iff₀ ha] at hlt
      have : m.f_x x < 0 := by
        rw [f_x_eq m x h1.ne hm.2.2.2.ne]
        have u : 0 < 1 - x := by linarith
        have v : 0 < 1 - m.x0 := by rw [hx0]; linarith
        have w : 0 < m.x0 := hm.2.2.1
        refine mul_neg_of_pos_of_neg (by positivity) (div_neg_of_neg_of_pos (by rw [hx0]; linarith) (by positivity))
      nlinarith
    have ff : 0 ≤ m.f x := by
      rw [f_eq]; unfold hardSphere
      have w : 0 < m.x0 := hm.2.2.1
      positivity
    unfold Screening.energy
    rw [hp, hq, sum]
    have t1 : x / a ≤ 1 / a := div_le_div_of_nonneg_right h1.le ha.le
    have t2 : m.f_x x * x ≤ V / a := by
      have : 0 ≤ V / a := by positivity
      calc m.f_x x * x ≤ V / a * x := mul_le_mul_of_nonneg_right hfx h0.le
        _ ≤ V / a := by nlinarith
    linarith
  have exists_eq : ∀ V, ∃ r, 0 < r ∧ r < 1 ∧ Equilibrium m V r := fun V => by
    obtain ⟨_, _, _, _, _, r, h1, h2, h3, _⟩ := C80_packing m hm V
    exact ⟨r, h1, h2, h3⟩
  obtain ⟨r1, g1, g2, g3⟩ := exists_eq 1
  have c0 : 0 < c := by
    have := hc 1 r1 g1 g2 g3
    have := pos 1 r1 one_ne_zero g1 g2
    linarith
  obtain ⟨r, k1, k2, k3⟩ := exists_eq (1 + 2 / (a * c))
  have e := hc _ r k1 k2 k3
  have V1 : (1 : ℝ) ≤ 1 + 2 / (a * c) := by
    have : 0 < 2 / (a * c) := by positivity
    linarith
  have g := growth _ r (by linarith) k1 k2 k3
  rw [e] at g
  have hV : 1 + 2 / (a * c) > 2 / (a * c) := by linarith
  generalize 1 + 2 / (a * c) = V at V1 g hV
  have hV' : 2 < V * (a * c) := by
    have := (div_lt_iff₀ (by positivity : 0 < a * c)).1 hV
    exact this
  have g' : c * V ^ 2 * a ≤ 1 + V := by
    have : (1 / a + V / a) * a = 1 + V := by field_simp
    rw [← this]; exact mul_le_mul_of_nonneg_right g ha.le
  nlinarith

/-! ### Evaluation on the grid -/

theorem getCoeff_size (samples : List ℝ) (odd : Bool) (coeff : Spline.Arr) (h : Spline.getCoeff samples odd = .ok coeff) :
    coeff.size = samples.length + 4 := by
  unfold Spline.getCoeff at h
  simp only at h
  split at h
  · cases h
  · injection h with h; rw [← h]

/-- The tabulated function and its derivative, below the end of the table. -/
theorem radial_ok (samples : List ℝ) (hN : 3 ≤ samples.length) (odd : Bool) (dGinv : ℝ) (hd : 0 < dGinv) :
    ∃ (coeff : Spline.Arr) (L L' : ℝ → ℝ), Spline.getCoeff samples odd = .ok coeff ∧ (∀ y, HasDerivAt L (L' y) y) ∧
      (∀ y, 0 ≤ y → y * dGinv < (samples.length : ℝ) - 1 → radial coeff dGinv y = .ok (L y) ∧ radialDeriv coeff dGinv y = .ok (L' y)) ∧
      ∀ i < samples.length, L (i / dGinv) = if odd ∧ i = 0 then 0 else samples.getD i 0 := by
  obtain ⟨coeff, F, h1, h2, h3, h4, _⟩ := Spline.C42_spline samples hN odd
  refine ⟨coeff, fun y => F 0 (y * dGinv), fun y => F 1 (y * dGinv) * dGinv, h1, ?_, ?_, ?_⟩
  · intro y
    have := (h2.1 0 (by norm_num) (y * dGinv)).comp y ((hasDerivAt_id y).mul_const dGinv)
    exact this.congr_deriv (by simp)
  · intro y h0 hy
    have hs := getCoeff_size samples odd coeff h1
    have hc : ¬ (y * dGinv ≥ (coeff.size : ℝ) - 5) := by
      rw [hs]; push_cast; exact not_le.2 (by linarith)
    obtain ⟨v, w⟩ := h3 (y * dGinv) (by positivity) hy
    unfold radial radialDeriv
    rw [if_neg hc, if_neg hc, v, w]
    exact ⟨rfl, rfl⟩
  · intro i hi
    simp only [div_mul_cancel₀ _ hd.ne']
    exact h4 i hi

theorem mapM_some {α β : Type} (f : α → Option β) (l : List α) (r : List β) (h : l.mapM f = some r) :
    r.length = l.length ∧ ∀ i (hi : i < l.length), f l[i] = r[i]? := by
  induction l generalizing r with
  | nil => simp at h; subst h; simp
  | cons a l ih =>
    rw [List.mapM_cons] at h
    cases ha : f a with
    | none => rw [ha] at h; cases h
    | some b =>
      cases hl : l.mapM f with
      | none => rw [ha, hl] at h; cases h
      | some t =>
        rw [ha, hl] at h
        have h : some (b :: t) = some r := h
        injection h with h
        subst h
        obtain ⟨i1, i2⟩ := ih t hl
        refine ⟨by simp [i1], fun i hi => ?_⟩
        cases i with
        | zero => simpa using ha
        | succ i => simpa using i2 i (by simpa using hi)

theorem sqrt_gt (v : ℝ) : |2 * v| < Real.sqrt (1 + 4 * v * v) ∧ 1 ≤ Real.sqrt (1 + 4 * v * v) := by
  constructor
  · rw [Real.lt_sqrt (abs_nonneg _), sq_abs]; nlinarith
  · rw [Real.le_sqrt' (by norm_num)]; nlinarith [mul_self_nonneg v]

theorem mapped_range (m : Screening) (phi : ℝ) : 0 < m.mapped phi ∧ m.mapped phi < 2 := by
  unfold Screening.mapped
  generalize m.ZbyT * phi = v
  obtain ⟨h1, h2⟩ := sqrt_gt v
  rw [abs_lt] at h1
  have hp : 0 < 1 + Real.sqrt (1 + 4 * v * v) := by linarith
  have e1 : 2 * v / (1 + Real.sqrt (1 + 4 * v * v)) < 1 := by rw [div_lt_one hp]; linarith
  have e2 : -1 < 2 * v / (1 + Real.sqrt (1 + 4 * v * v)) := by rw [lt_div_iff₀ hp]; linarith
  exact ⟨by linarith, by linarith⟩

theorem mapped_deriv (m : Screening) (phi : ℝ) :
    HasDerivAt m.mapped (2 * m.ZbyT / (Real.sqrt (1 + 4 * (m.ZbyT * phi) * (m.ZbyT * phi)) * (1 + Real.sqrt (1 + 4 * (m.ZbyT * phi) * (m.ZbyT * phi))))) phi := by
  have hv : HasDerivAt (fun phi => m.ZbyT * phi) m.ZbyT phi := by simpa using (hasDerivAt_id phi).const_mul m.ZbyT
  obtain ⟨_, h2⟩ := sqrt_gt (m.ZbyT * phi)
  have hq : HasDerivAt (fun phi => 1 + 4 * (m.ZbyT * phi) * (m.ZbyT * phi)) (8 * (m.ZbyT * phi) * m.ZbyT) phi := by
    refine (((hv.const_mul 4).mul hv).const_add 1).congr_deriv ?_
    ring
  have hpos : 0 < 1 + 4 * (m.ZbyT * phi) * (m.ZbyT * phi) := by nlinarith [mul_self_nonneg (m.ZbyT * phi)]
  have hs := hq.sqrt hpos.ne'
  have h1 : 1 + Real.sqrt (1 + 4 * (m.ZbyT * phi) * (m.ZbyT * phi)) ≠ 0 := by linarith
  have := ((hv.const_mul 2).div (hs.const_add 1) h1).const_add 1
  refine this.congr_deriv ?_
  have hsq := Real.mul_self_sqrt hpos.le
  generalize Real.sqrt (1 + 4 * (m.ZbyT * phi) * (m.ZbyT * phi)) = q at *
  have : q ≠ 0 := by linarith
  field_simp
  linear_combination (m.ZbyT * 2) * hsq

/-- The potential at a table entry is mapped back to that entry. -/
theorem mapped_node (m : Screening) (y phi : ℝ) (h1 : -1 < y) (h2 : y < 1) (h : m.ZbyT * phi = y / (1 - y * y)) : m.mapped phi = 1 + y := by
  have hp : 0 < 1 - y * y := by nlinarith
  have hp' := hp.ne'
  have e : 1 + 4 * (y / (1 - y * y)) * (y / (1 - y * y)) = ((1 + y * y) / (1 - y * y)) ^ 2 := by
    generalize hz : 1 - y * y = z at *
    field_simp
    rw [← hz]; ring
  unfold Screening.mapped
  rw [h, e, Real.sqrt_sq (div_nonneg (by nlinarith [mul_self_nonneg y]) hp.le)]
  have e2 : 1 + (1 + y * y) / (1 - y * y) = 2 / (1 - y * y) := by
    generalize hz : 1 - y * y = z at *
    field_simp
    rw [← hz]; ring
  rw [e2]
  generalize 1 - y * y = z at *
  field_simp

/-- **C80 (screening).** With the table that the program computes, the ionic energy density at each point is the shape function times a function `F` of
the potential there. At the potentials of the table entries `F` is the energy of the ions; the value added to `A_phi` is the derivative of
the energy wherever this is finite (the interpolated value is not zero), and the value added to `A_s` is its derivative with respect to the shape function. -/
theorem C80_screening (m : Screening) (fuel : Nat) (samples : List ℝ) (ht : m.table fuel = some samples) :
    ∃ (coeff : Spline.Arr) (F F' : ℝ → ℝ), Spline.getCoeff samples true = .ok coeff ∧
      (∀ s phi, m.apply coeff 512 s phi = .ok (s * F phi, s * F' phi, F phi)) ∧
      (∀ phi, radial coeff 512 (m.mapped phi) ≠ .ok 0 → HasDerivAt F (F' phi) phi) ∧
      ∀ k : Nat, 0 < k → k < 1024 → ∀ phi V : ℝ, V = (-1 + k / 512) / (1 - (-1 + k / 512) ^ 2) → m.ZbyT * phi = V →
        ∃ x, m.x_from_V fuel V = some x ∧ F phi = m.NT * m.energy x V := by
  obtain ⟨hlen, hget⟩ := mapM_some _ _ _ ht
  rw [List.length_range] at hlen
  obtain ⟨coeff, L, L', h1, h2, h3, h4⟩ := radial_ok samples (by omega) true 512 (by norm_num)
  have dom : ∀ phi, radial coeff 512 (m.mapped phi) = .ok (L (m.mapped phi)) ∧ radialDeriv coeff 512 (m.mapped phi) = .ok (L' (m.mapped phi)) := by
    intro phi
    obtain ⟨a, b⟩ := mapped_range m phi
    refine h3 _ a.le ?_
    rw [hlen]; push_cast; linarith
  refine ⟨coeff, fun phi => (1 / L (m.mapped phi) - 1) * m.NT,
    fun phi => (-(1 / L (m.mapped phi)) * (1 / L (m.mapped phi)) * m.NT) * L' (m.mapped phi) *
      (2 * m.ZbyT / (Real.sqrt (1 + 4 * (m.ZbyT * phi) * (m.ZbyT * phi)) * (1 + Real.sqrt (1 + 4 * (m.ZbyT * phi) * (m.ZbyT * phi))))), h1, ?_, ?_, ?_⟩
  · intro s phi
    unfold Screening.apply
    rw [(dom phi).1, (dom phi).2]
    rfl
  · intro phi hne
    rw [(dom phi).1] at hne
    have hne : L (m.mapped phi) ≠ 0 := fun h => hne (by rw [h])
    have := (((((h2 (m.mapped phi)).comp phi (mapped_deriv m phi)).fun_inv hne).sub_const 1).mul_const m.NT)
    simp only [← one_div] at this
    refine this.congr_deriv ?_
    simp only [Function.comp]
    field_simp
  · intro k k0 k1 phi V hV hphi
    have hk := hget k (by simp; omega)
    rw [List.getElem_range] at hk
    have y1 : (-1 : ℝ) < -1 + k / 512 := by
      have : (0 : ℝ) < k := by exact_mod_cast k0
      have : (0 : ℝ) < (k : ℝ) / 512 := by positivity
      linarith
    have y2 : -1 + (k : ℝ) / 512 < 1 := by
      have : (k : ℝ) < 1024 := by exact_mod_cast k1
      linarith
    rw [show -1 + (k : ℝ) * (1 / 512) = -1 + k / 512 by ring] at hk
    have habs : ¬ (|(-1 : ℝ) + k / 512| = 1) := (abs_lt.2 ⟨y1, y2⟩).ne
    unfold Screening.sample at hk
    rw [if_neg habs] at hk
    have hV' : (-1 + (k : ℝ) / 512) / (1 - (-1 + (k : ℝ) / 512) * (-1 + (k : ℝ) / 512)) = V := by rw [hV]; ring_nf
    simp only [hV'] at hk
    cases hx : m.x_from_V fuel V with
    | none =>
      rw [hx] at hk
      have : samples[k]? = none := hk.symm
      rw [List.getElem?_eq_none_iff] at this
      omega
    | some x =>
      rw [hx] at hk
      have hk : some (1 / (1 + m.energy x V)) = samples[k]? := hk
      refine ⟨x, rfl, ?_⟩
      have nd : m.mapped phi = (k : ℝ) / 512 := by
        rw [mapped_node m (-1 + k / 512) phi y1 y2 (by rw [hphi, ← hV'])]; ring
      have hv := h4 k (by omega)
      rw [if_neg (by omega), List.getD_eq_getElem?_getD, ← hk] at hv
      simp only [nd, hv, Option.getD_some]
      rw [one_div_one_div]; ring

theorem dot3_nonneg (E : Fin 3 → ℝ) : 0 ≤ dot3 E E := by
  unfold dot3; nlinarith [mul_self_nonneg (E 0), mul_self_nonneg (E 1), mul_self_nonneg (E 2)]

theorem dot3_deriv (c : ℝ → Fin 3 → ℝ) (c' : Fin 3 → ℝ) (t : ℝ) (hc : ∀ k, HasDerivAt (fun t => c t k) (c' k) t) :
    HasDerivAt (fun t => dot3 (c t) (c t)) (2 * dot3 (c t) c') t := by
  have := (((hc 0).mul (hc 0)).add ((hc 1).mul (hc 1))).add ((hc 2).mul (hc 2))
  refine this.congr_deriv ?_
  unfold dot3; ring

/-- A product whose second factor vanishes at the point needs only continuity of the first. -/
theorem mul_deriv_zero (u v : ℝ → ℝ) (v' t : ℝ) (hu : ContinuousAt u t) (hv : HasDerivAt v v' t) (h0 : v t = 0) : HasDerivAt (fun t => u t * v t) (u t * v') t := by
  rw [hasDerivAt_iff_tendsto_slope] at hv ⊢
  have e : slope (fun t => u t * v t) t = fun y => u y * slope v t y := by
    funext y; simp only [slope_def_field, h0]; ring
  rw [e]
  exact (hu.tendsto.mono_left nhdsWithin_le_nhds).mul hv

/-- **C80 (dielectric).** With the table that the program computes, the dipole energy density at each point is the shape function times a function `F`
of the electric field there. At the fields of the table entries `F` is the energy of the dipoles; for every differentiable change of the
field (also through zero) the rate of change of the energy is the product with the vector stored to `A_Dphi`, and the value stored to `A_s` is the derivative with
respect to the shape function. -/
theorem C80_dielectric (d : Dielectric) (hp : 0 < d.pByT) (fuel : Nat) (samples : List ℝ) (ht : d.table fuel = some samples) :
    ∃ (coeff : Spline.Arr) (F : (Fin 3 → ℝ) → ℝ) (F' : (Fin 3 → ℝ) → Fin 3 → ℝ), Spline.getCoeff samples false = .ok coeff ∧
      (∀ s E, d.apply coeff 512 s E = .ok (s * F E, fun k => s * F' E k, F E)) ∧
      (∀ (c : ℝ → Fin 3 → ℝ) (c' : Fin 3 → ℝ) (t : ℝ), (∀ k, HasDerivAt (fun t => c t k) (c' k) t) →
        HasDerivAt (fun t => F (c t)) (dot3 (F' (c t)) c') t) ∧
      ∀ k : Nat, 0 < k → k < 512 → ∀ (E : Fin 3 → ℝ) (x : ℝ), x = (k / 512) / (1 - k / 512) → d.pByT * Real.sqrt (dot3 E E) = x →
        ∃ eps, d.eps_from_x fuel x = some eps ∧ F E = d.energy eps x := by
  obtain ⟨hlen, hget⟩ := mapM_some _ _ _ ht
  rw [List.length_range] at hlen
  obtain ⟨coeff, L, L', h1, h2, h3, h4⟩ := radial_ok samples (by omega) false 512 (by norm_num)
  have xnn : ∀ E, 0 ≤ d.xOf E := fun E => mul_nonneg hp.le (Real.sqrt_nonneg _)
  have dom : ∀ E, radial coeff 512 (d.xOf E * (1 / (1 + d.xOf E))) = .ok (L (d.xOf E * (1 / (1 + d.xOf E)))) ∧
      radialDeriv coeff 512 (d.xOf E * (1 / (1 + d.xOf E))) = .ok (L' (d.xOf E * (1 / (1 + d.xOf E)))) := by
    intro E
    have h0 := xnn E
    have hlt : d.xOf E * (1 / (1 + d.xOf E)) < 1 := by rw [mul_one_div, div_lt_one (by linarith)]; linarith
    refine h3 _ (by positivity) ?_
    rw [hlen]; push_cast; linarith
  refine ⟨coeff, fun E => L (d.xOf E * (1 / (1 + d.xOf E))) * (d.xOf E * d.xOf E),
    fun E k => ((L' (d.xOf E * (1 / (1 + d.xOf E))) * (d.xOf E * (1 / (1 + d.xOf E))) * (1 / (1 + d.xOf E))
      + 2 * L (d.xOf E * (1 / (1 + d.xOf E)))) * (d.pByT * d.pByT)) * E k, h1, ?_, ?_, ?_⟩
  · intro s E
    unfold Dielectric.apply
    simp only
    rw [(dom E).1, (dom E).2]
    have e : ∀ k, s * ((L' (d.xOf E * (1 / (1 + d.xOf E))) * (d.xOf E * (1 / (1 + d.xOf E))) * (1 / (1 + d.xOf E))
        + 2 * L (d.xOf E * (1 / (1 + d.xOf E)))) * (d.pByT * d.pByT)) * E k = s * (((L' (d.xOf E * (1 / (1 + d.xOf E))) * (d.xOf E * (1 / (1 + d.xOf E))) * (1 / (1 + d.xOf E))
        + 2 * L (d.xOf E * (1 / (1 + d.xOf E)))) * (d.pByT * d.pByT)) * E k) := fun k => by ring
    simp only [← e]
    rfl
  · intro c c' t hc
    have hd := dot3_deriv c c' t hc
    have hsq : ∀ E, d.xOf E * d.xOf E = d.pByT * d.pByT * dot3 E E := by
      intro E; unfold Dielectric.xOf
      have := Real.mul_self_sqrt (dot3_nonneg E)
      linear_combination (d.pByT * d.pByT) * this
    have hdot : ∀ a : ℝ, dot3 (fun k => a * c t k) c' = a * dot3 (c t) c' := fun a => by unfold dot3; ring
    rw [hdot]
    by_cases h0 : dot3 (c t) (c t) = 0
    · have hx0 : d.xOf (c t) = 0 := by unfold Dielectric.xOf; rw [h0]; simp
      have hcz : dot3 (c t) c' = 0 := by
        have z : ∀ k, c t k = 0 := by
          have a := mul_self_nonneg (c t 0); have b := mul_self_nonneg (c t 1); have e := mul_self_nonneg (c t 2)
          unfold dot3 at h0
          intro k
          match k with
          | 0 => exact mul_self_eq_zero.1 (by linarith)
          | 1 => exact mul_self_eq_zero.1 (by linarith)
          | 2 => exact mul_self_eq_zero.1 (by linarith)
        unfold dot3; rw [z, z, z]; ring
      have hcont : ContinuousAt (fun t => L (d.xOf (c t) * (1 / (1 + d.xOf (c t))))) t := by
        have cx : ContinuousAt (fun t => d.xOf (c t)) t := by
          unfold Dielectric.xOf
          exact continuousAt_const.mul (Real.continuous_sqrt.continuousAt.comp hd.continuousAt)
        have cL : Continuous L := continuous_iff_continuousAt.2 fun y => (h2 y).continuousAt
        have ne : 1 + d.xOf (c t) ≠ 0 := by rw [hx0]; norm_num
        exact cL.continuousAt.comp (cx.mul (continuousAt_const.div (continuousAt_const.add cx) ne))
      have hv : HasDerivAt (fun t => d.xOf (c t) * d.xOf (c t)) 0 t := by
        have := hd.const_mul (d.pByT * d.pByT)
        rw [hcz] at this
        simp only [hsq]
        simpa using this
      have := mul_deriv_zero _ _ _ t hcont hv (by rw [hx0]; ring)
      rw [hcz]
      simpa using this
    · have hpos : 0 < dot3 (c t) (c t) := lt_of_le_of_ne (dot3_nonneg _) (Ne.symm h0)
      have hs : 0 < Real.sqrt (dot3 (c t) (c t)) := Real.sqrt_pos.2 hpos
      have hx : HasDerivAt (fun t => d.xOf (c t)) (d.pByT * (dot3 (c t) c' / Real.sqrt (dot3 (c t) (c t)))) t := by
        refine ((hd.sqrt hpos.ne').const_mul d.pByT).congr_deriv ?_
        field_simp
      have ne : 1 + d.xOf (c t) ≠ 0 := by have := xnn (c t); linarith
      have hy : HasDerivAt (fun t => d.xOf (c t) * (1 / (1 + d.xOf (c t))))
          (d.pByT * (dot3 (c t) c' / Real.sqrt (dot3 (c t) (c t))) * (1 / (1 + d.xOf (c t))) ^ 2) t := by
        have := hx.mul ((hx.const_add 1).fun_inv ne)
        simp only [← one_div] at this
        refine this.congr_deriv ?_
        field_simp; ring
      have := ((h2 _).comp t hy).mul (hx.mul hx)
      refine this.congr_deriv ?_
      simp only [Function.comp, Pi.mul_apply]
      have ex : d.xOf (c t) = d.pByT * Real.sqrt (dot3 (c t) (c t)) := rfl
      generalize L' (d.xOf (c t) * (1 / (1 + d.xOf (c t)))) = l'
      generalize L (d.xOf (c t) * (1 / (1 + d.xOf (c t)))) = l
      have hi : d.xOf (c t) * (dot3 (c t) c' / Real.sqrt (dot3 (c t) (c t))) = d.pByT * dot3 (c t) c' := by
        rw [ex]; field_simp
      generalize 1 / (1 + d.xOf (c t)) = w
      generalize dot3 (c t) c' / Real.sqrt (dot3 (c t) (c t)) = q at *
      linear_combination (l' * d.pByT * w ^ 2 * d.xOf (c t) + 2 * l * d.pByT) * hi
  · intro k k0 k1 E x hxk hE
    have hk := hget k (by simp; omega)
    rw [List.getElem_range] at hk
    have y1 : (0 : ℝ) < (k : ℝ) / 512 := by
      have : (0 : ℝ) < k := by exact_mod_cast k0
      positivity
    have y2 : (k : ℝ) / 512 < 1 := by
      have : (k : ℝ) < 512 := by exact_mod_cast k1
      linarith
    rw [mul_one_div] at hk
    unfold Dielectric.sample at hk
    rw [if_neg y1.ne', if_neg y2.ne, ← hxk] at hk
    cases he : d.eps_from_x fuel x with
    | none =>
      simp only [he] at hk
      have : samples[k]? = none := hk.symm
      rw [List.getElem?_eq_none_iff] at this
      omega
    | some eps =>
      simp only [he] at hk
      have hk : some (d.energy eps x / (x * x)) = samples[k]? := hk
      refine ⟨eps, rfl, ?_⟩
      have ex : d.xOf E = x := hE
      have xpos : 0 < x := by rw [hxk]; exact div_pos y1 (by linarith)
      have nd : x * (1 / (1 + x)) = (k : ℝ) / 512 := by
        have : 1 - (k : ℝ) / 512 ≠ 0 := by linarith
        generalize (k : ℝ) / 512 = y at *
        have h2 : 1 + y / (1 - y) = 1 / (1 - y) := by rw [eq_div_iff this, add_mul, div_mul_cancel₀ _ this]; ring
        rw [hxk, h2]
        generalize 1 - y = z at *
        field_simp
      have hv := h4 k (by omega)
      rw [if_neg (by simp), List.getD_eq_getElem?_getD, ← hk] at hv
      simp only [ex, nd, hv, Option.getD_some]
      field_simp

theorem mapM_exists (f : Nat → Nat → Option ℝ) (l : List Nat) (h : ∀ k ∈ l, ∃ n v, ∀ fuel ≥ n, f fuel k = some v) :
    ∃ n r, ∀ fuel ≥ n, l.mapM (f fuel) = some r := by
  induction l with
  | nil => exact ⟨0, [], fun _ _ => rfl⟩
  | cons a l ih =>
    obtain ⟨n1, v, h1⟩ := h a (by simp)
    obtain ⟨n2, r, h2⟩ := ih fun k hk => h k (by simp [hk])
    refine ⟨max n1 n2, v :: r, fun fuel hf => ?_⟩
    rw [List.mapM_cons, h1 fuel (le_trans (le_max_left _ _) hf), h2 fuel (le_trans (le_max_right _ _) hf)]
    rfl

/-- **C80 (tables).** For every electrolyte and every solvent in range the computation of the tables ends. -/
theorem C80_tables (m : Screening) (hm : Ions m) (d : Dielectric) (hd : Dipoles d) :
    (∃ n samples, ∀ fuel ≥ n, m.table fuel = some samples) ∧ ∃ n samples, ∀ fuel ≥ n, d.table fuel = some samples := by
  constructor
  · refine mapM_exists (fun fuel k => m.sample fuel (-1 + k * (1 / 512))) _ fun k _ => ?_
    by_cases h : |-1 + (k : ℝ) * (1 / 512)| = 1
    · exact ⟨0, 0, fun fuel _ => by simp only [Screening.sample]; rw [if_pos h]⟩
    · obtain ⟨n, x, hx, _⟩ := C80_packing m hm ((-1 + (k : ℝ) * (1 / 512)) / (1 - (-1 + (k : ℝ) * (1 / 512)) * (-1 + (k : ℝ) * (1 / 512))))
      refine ⟨n, 1 / (1 + m.energy x ((-1 + (k : ℝ) * (1 / 512)) / (1 - (-1 + (k : ℝ) * (1 / 512)) * (-1 + (k : ℝ) * (1 / 512))))), fun fuel hf => ?_⟩
      simp only [Screening.sample]
      rw [if_neg h, hx fuel hf]
      rfl
  · refine mapM_exists (fun fuel k => d.sample fuel (k * (1 / 512))) _ fun k hk => ?_
    have hk : k ≤ 512 := by have := List.mem_range.1 hk; omega
    by_cases h0 : (k : ℝ) * (1 / 512) = 0
    · exact ⟨0, _, fun fuel _ => by simp only [Dielectric.sample]; rw [if_pos h0]⟩
    by_cases h1 : (k : ℝ) * (1 / 512) = 1
    · exact ⟨0, _, fun fuel _ => by simp only [Dielectric.sample]; rw [if_neg h0, if_pos h1]⟩
    have hk' : (k : ℝ) ≤ 512 := by exact_mod_cast hk
    have p0 : 0 < (k : ℝ) * (1 / 512) := lt_of_le_of_ne (by positivity) (Ne.symm h0)
    have p1 : (k : ℝ) * (1 / 512) < 1 := lt_of_le_of_ne (by linarith) h1
    obtain ⟨n, eps, _, _, hx, _⟩ := C80_field d hd ((k : ℝ) * (1 / 512) / (1 - (k : ℝ) * (1 / 512))) (div_pos p0 (by linarith))
    refine ⟨n, d.energy eps ((k : ℝ) * (1 / 512) / (1 - (k : ℝ) * (1 / 512))) / ((k : ℝ) * (1 / 512) / (1 - (k : ℝ) * (1 / 512)) * ((k : ℝ) * (1 / 512) / (1 - (k : ℝ) * (1 / 512)))), fun fuel hf => ?_⟩
    simp only [Dielectric.sample]
    rw [if_neg h0, if_neg h1, hx fuel hf]
    rfl

/-- The hypotheses of `C80_screening` and `C80_dielectric` are met. -/
example : ∃ fuel samples, salt.table fuel = some samples := by
  obtain ⟨⟨n, s, h⟩, _⟩ := C80_tables salt salt_ok.1 (dipoles false) (by unfold Dipoles dipoles; norm_num)
  exact ⟨n, s, h n le_rfl⟩
example : ∃ fuel samples, (dipoles true).table fuel = some samples := by
  obtain ⟨_, n, s, h⟩ := C80_tables salt salt_ok.1 (dipoles true) (by unfold Dipoles dipoles; norm_num)
  exact ⟨n, s, h n le_rfl⟩

end
end Jdftx.NPCM
