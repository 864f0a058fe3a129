import Verif.Lemmas.FluidMix
import Verif.Props.FluidEx
import Verif.Props.FluidTrans

/-!
# C95: energy and gradient of a mixture of classical fluids
-/
namespace Jdftx.Fluid
open Box ExCorr Cavity Filter Topology
noncomputable section

variable {C : Nat}

/-! ### The gradient -/

/-- **C95, partial.** The gradient which the code computes is the derivative of the energy, in every direction, if the potential that makes the cell neutral is found exactly, the components are ideal gases that report their derivatives
consistently, and so do the contributions to the excess energy. Missing: the potential is found by Newton's method with a tolerance and a bounded number of steps (`C95_newton_fails`), and gases of dipolar molecules whose number is scaled do
not report their derivatives consistently (`C95_dipole_fails`). -/
theorem C95_gradient_partial (g : Grid) (hg : GridOK g) (m : MixF C) (hm : ∀ c, 0 < (m.comp c).mult0) (psi dpsi : m.State)
    (hnn : ∀ᶠ t in 𝓝 (0 : ℝ), ∀ c i, ∀ j < nr g.S, 0 ≤ (m.comp c).gas.N (fun k j => psi c k j + t * dpsi c k j) i j)
    (hc : ∀ c, 0 < m.count g psi c) (hsol : (∃ c, m.free c) → ∀ n : Fin C → ℝ, (∀ c, 0 < n c) → ∃ b, m.Neutral n b)
    (ns : Fin C → ℝ) (hns : ns = m.nscale (m.count g psi) (m.neutralV (m.count g psi))) (hgas : ∀ c, GasGrad g m.T (m.comp c).mult0 (m.comp c).gas (psi c) (ns c))
    (hterm : ∀ t ∈ m.terms, TermGrad g t (m.tilde g psi ns) (m.P0 psi ns)) :
    HasDerivO (fun t => m.exactEnergy g fun c k j => psi c k j + t * dpsi c k j) (∑ c, ∑ k, ∑ j ∈ Finset.range (nr g.S), m.exactGrad g psi c k j * dpsi c k j) 0 := by
  refine mix_deriv g m hg.1 hg.2 hm (psi := psi) (Ψ := fun t c k j => psi c k j + t * dpsi c k j) (by simp) (fun c k j _ => ?_) hnn hc hsol hns hgas (termSum_grad g _ _ _ hterm)
  simpa using ((hasDerivAt_id (0 : ℝ)).mul_const (dpsi c k j)).const_add (psi c k j)

/-- **C95.** A mixture of monoatomic ions: no assumption on the gases is needed. -/
theorem C95_ions (g : Grid) (hg : GridOK g) (hV : 0 < g.dV) (ion : Fin C → Ion) (hN : ∀ c, 0 < (ion c).Nbulk) (T p Qext Qtol : ℝ) (terms : List (Term fun _ : Fin C => 0 + 1))
    (m : MixF C) (hm : m = ionMix g ion T p Qext Qtol terms) (psi dpsi : m.State)
    (hsol : (∃ c, m.free c) → ∀ n : Fin C → ℝ, (∀ c, 0 < n c) → ∃ b, m.Neutral n b)
    (ns : Fin C → ℝ) (hns : ns = m.nscale (m.count g psi) (m.neutralV (m.count g psi))) (hterm : ∀ t ∈ m.terms, TermGrad g t (m.tilde g psi ns) (m.P0 psi ns)) :
    HasDerivO (fun t => m.exactEnergy g fun c k j => psi c k j + t * dpsi c k j) (∑ c, ∑ k, ∑ j ∈ Finset.range (nr g.S), m.exactGrad g psi c k j * dpsi c k j) 0 := by
  subst hm
  have hpos : ∀ (q : (ionMix g ion T p Qext Qtol terms).State) c i j, 0 < ((ionMix g ion T p Qext Qtol terms).comp c).gas.N (q c) i j := fun q c i j => mul_pos (hN c) (Real.exp_pos _)
  have hcount : ∀ c, 0 < (ionMix g ion T p Qext Qtol terms).count g psi c := by
    intro c
    rw [count_eq g _ hg.1 hg.2]
    refine div_pos (mul_pos hV (Finset.sum_pos (fun j _ => ?_) ⟨0, Finset.mem_range.2 (nr_pos g.S hg.1)⟩)) (by simp [ionMix])
    rw [dens0_nonneg _ (hpos psi c 0 j).le]
    exact hpos psi c 0 j
  refine C95_gradient_partial g hg _ (fun c => Nat.one_pos) psi dpsi (Eventually.of_forall fun t c i j _ => (hpos (fun c k j => psi c k j + t * dpsi c k j) c i j).le) hcount hsol ns hns (fun c => ?_) hterm
  exact gasMono_grad g T _ _ _ (psi c) (ns c) (by rw [hns]; exact nscale_pos _ hcount _ c)

/-- **C95.** What the code evaluates is that energy and that gradient, if the potential it finds makes the cell neutral. -/
theorem C95_evaluate (g : Grid) (m : MixF C) (psi : m.State) (hc : ∀ c, 0 < m.count g psi c) (b Qp : ℝ) (hs : m.solve (m.count g psi) = .ok (b, Qp))
    (hb : (∃ c, m.free c) → m.Neutral (m.count g psi) b ∧ Qp = deriv (m.total (m.count g psi)) b) :
    m.evaluate g psi = .ok (m.exactEnergy g psi, m.exactGrad g psi) := by
  classical
  unfold MixF.evaluate
  simp only [hs]
  show Except.ok (m.energy g psi (m.nscale (m.count g psi) b), m.grad g psi (m.nscale (m.count g psi) b) (m.jac (m.count g psi) b Qp)) = _
  by_cases hf : ∃ c, m.free c
  · obtain ⟨h1, h2⟩ := hb hf
    have e : m.neutralV (m.count g psi) = b := neutral_unique m hc hf (m.neutralV_spec ⟨b, h1⟩) h1
    rw [m.total_deriv] at h2
    unfold MixF.exactEnergy MixF.exactGrad
    simp only [e, ← h2]
  · have n1 : ∀ b', m.nscale (m.count g psi) b' = m.nscale (m.count g psi) b := by
      intro b'; funext c
      unfold MixF.nscale
      rw [if_neg fun h => hf ⟨c, h⟩, if_neg fun h => hf ⟨c, h⟩]
    have n2 : ∀ b' q, m.jac (m.count g psi) b' q = m.jac (m.count g psi) b Qp := by
      intro b' q; funext c d
      unfold MixF.jac
      rw [if_neg fun h : _ ∧ _ => hf ⟨c, h.1⟩, if_neg fun h : _ ∧ _ => hf ⟨c, h.1⟩]
    unfold MixF.exactEnergy MixF.exactGrad
    simp only [n1 (m.neutralV _), n2 (m.neutralV _)]

/-- **C95.** Monoatomic gases report their derivatives consistently, for every scale factor. -/
theorem C95_gas_mono (g : Grid) (T mu Nbulk : ℝ) (V : Field) (psi : Fin 1 → Field) (ν : ℝ) (hν : 0 < ν) : GasGrad g T 1 (gasMono g T mu Nbulk V) psi ν := gasMono_grad g T mu Nbulk V psi ν hν

/-- **C95, partial.** So do gases of rigid molecules, in each of the three representations, with each translation operator, for any quadrature over orientations, if the scale factor is 1 or there is no correction for dipole correlations.
Missing: scale factors other than 1 for dipolar molecules (`C95_dipole_fails`). -/
theorem C95_gas_orient_partial (g : Grid) (hg : GridOK g) {n nO : Nat} (o : Orient n nO) (r : Rep) (hm : 0 < o.mult0) (hl : ∀ w, (o.disp w 0).length = o.mult0)
    (psi : Fin (r.nI n nO) → Field) (ν : ℝ) (hν : 0 < ν) (hc : ν = 1 ∨ o.corrPrefac = 0 ∨ ∀ w k, o.dip w k = 0) : GasGrad g o.T o.mult0 (o.gas g r) psi ν :=
  gasOrient_grad g o r hg.1 hg.2 hm hl psi ν hν hc

/-- **C95.** With the spline translation operators and weights that are not negative, site densities are not negative. -/
theorem C95_orient_nonneg (g : Grid) (hg : GridOK g) {n nO : Nat} (o : Orient n nO) (r : Rep) (ht : o.trans ≠ .fourier) (hw : ∀ w, 0 ≤ o.weight w) (hN : 0 ≤ o.Nbulk)
    (psi : Fin (r.nI n nO) → Field) (i : Fin (n + 1)) : ∀ j < nr g.S, 0 ≤ (o.gas g r).N psi i j := by
  intro j hj
  show 0 ≤ ∑ w, o.move g (o.disp w i) (o.No g r psi w) j
  refine Finset.sum_nonneg fun w _ => List.sum_nonneg fun x hx => ?_
  obtain ⟨f, _, rfl⟩ := List.mem_map.1 hx
  refine (C94_bounds o.trans ht g.S hg.1 f (o.No g r psi w) 0 (∑ j ∈ Finset.range (nr g.S), o.No g r psi w j) (fun j hj => ?_) j hj).1
  have hp : ∀ j, 0 ≤ o.No g r psi w j := fun j => mul_nonneg (mul_nonneg (hw w) hN) (Real.exp_pos _).le
  exact ⟨hp j, Finset.single_le_sum (f := fun j => o.No g r psi w j) (fun j _ => hp j) (Finset.mem_range.2 hj)⟩

section
variable {ns : Fin C → Nat} (N : DN ns) (P : DP C)

/-- **C95.** The electrostatic energy reports its derivative. -/
theorem C95_term_coulomb (g : Grid) (hg : GridOK g) (h2 : EvenGrid g) (hV : g.dV ≠ 0) (hd : g.detR ≠ 0) (q : (c : Fin C) → Fin (ns c) → Nat → ℝ) (mf : Fin C → Nat → ℝ) (useMF : Bool)
    (rhoExt : Arr) (Eext : Fin 3 → ℝ) : TermGrad g (termCoulomb g q mf useMF rhoExt Eext) N P := termCoulomb_grad g hg.1 h2 hV hd q mf useMF rhoExt Eext N P

/-- **C95.** The hard-sphere energy does. -/
theorem C95_term_spheres (g : Grid) (hg : GridOK g) (m : Mix C) (pick : (c : Fin C) → Fin (m.ns c) → Fin (ns c)) (hr : MixRegular g m fun c s => N c (pick c s)) :
    TermGrad g (termSpheres g m pick) N P := termSpheres_grad g hg.1 m pick N P hr

/-- **C95.** The energy from an equation of state does. -/
theorem C95_term_eos (g : Grid) (c0 : Fin C) {n : Nat} (sites : Fin n → Site) (pick : Fin n → Fin (ns c0)) (w : Nat → ℝ) (e : ℝ → Option (ℝ × ℝ))
    (hr : ∀ j < nr g.S, EosReg e (eosNbar g sites w (fun s => N c0 (pick s)) j)) : TermGrad g (termEos g c0 sites pick w e) N P := termEos_grad g c0 sites pick w e N P hr

/-- **C95.** The interaction of two sites does. -/
theorem C95_term_pair (g : Grid) (hg : GridOK g) (h2 : EvenGrid g) (c1 : Fin C) (s1 : Fin (ns c1)) (c2 : Fin C) (s2 : Fin (ns c2)) (a : ℝ) (w : Nat → ℝ) :
    TermGrad g (termPair g c1 s1 c2 s2 a w) N P := termPair_grad g hg.1 h2 c1 s1 c2 s2 a w N P

end

/-! ### The numbers of molecules -/

/-- **C95.** The number of molecules of a component is the prescribed one. -/
theorem C95_number (g : Grid) (hg : GridOK g) (m : MixF C) (psi : m.State) (c : Fin C) (hf : 0 < (m.comp c).Nnorm) (hc : 0 < m.count g psi c) (b : ℝ) : m.number g psi b c = (m.comp c).Nnorm := by
  classical
  rw [number_eq g m hg.1 hg.2]
  unfold MixF.nscale MixF.fixed
  rw [if_pos hf]
  exact div_mul_cancel₀ _ hc.ne'

/-- **C95.** If the code stops with an error, no potential makes the cell neutral. -/
theorem C95_die (m : MixF C) (n : Fin C → ℝ) (hn : ∀ c, 0 < n c) (e : Err) (h : m.solve n = .error e) : e = .die ∧ ∀ b, ¬ m.Neutral n b := by
  classical
  by_cases h1 : ∃ c, m.free c
  · obtain ⟨c, hc⟩ := h1
    unfold MixF.solve at h
    rw [if_neg (not_not.2 ⟨c, hc⟩)] at h
    by_cases h3 : (¬ ∃ c, m.free c ∧ 0 < (m.comp c).Q) ∧ m.Qfixed + 0 < 0
    · rw [if_pos h3] at h
      refine ⟨(Except.error.inj h).symm, fun b hb => ?_⟩
      rw [m.neutral_iff] at hb
      refine (root_not (s := m.freeSet) (fun i _ => hn i) ⟨c, m.mem_free.2 hc⟩ (fun i hi => ?_) (by linarith [h3.2]) b).ne hb
      exact lt_of_le_of_ne (not_lt.1 fun h' => h3.1 ⟨i, m.mem_free.1 hi, h'⟩) (m.mem_free.1 hi).1
    · rw [if_neg h3] at h
      by_cases h4 : (¬ ∃ c, m.free c ∧ (m.comp c).Q < 0) ∧ m.Qfixed + 0 > 0
      · rw [if_pos h4] at h
        refine ⟨(Except.error.inj h).symm, fun b hb => ?_⟩
        rw [m.neutral_iff] at hb
        have := root_not (s := m.freeSet) (q := fun c => -(m.comp c).Q) (n := n) (Qf := -m.Qfixed) (fun i _ => hn i) ⟨c, m.mem_free.2 hc⟩ (fun i hi => ?_) (by linarith [h4.2]) (-b)
        · rw [charge_flip, hb] at this; simp at this
        · have : 0 < (m.comp i).Q := lt_of_le_of_ne (not_lt.1 fun h' => h4.1 ⟨i, m.mem_free.1 hi, h'⟩) (m.mem_free.1 hi).1.symm
          linarith
      · rw [if_neg h4] at h
        exact absurd h (by simp)
  · unfold MixF.solve at h
    rw [if_pos h1] at h
    split_ifs at h with h2
    refine ⟨(Except.error.inj h).symm, fun b hb => ?_⟩
    rw [m.neutral_iff, charge, show m.freeSet = ∅ from Finset.eq_empty_of_forall_notMem fun c hc => h1 ⟨c, m.mem_free.1 hc⟩, Finset.sum_empty, add_zero] at hb
    rw [hb, abs_zero] at h2
    exact absurd h2 (not_lt.2 (abs_nonneg _))

/-- **C95, partial.** Conversely, if there are components that can adapt, and the code does not stop, exactly one potential makes the cell neutral. Missing: the case in which all these components have charges of the same sign and the remaining charge
is exactly zero (`C95_one_sign_fails`). -/
theorem C95_neutral_exists_partial (m : MixF C) (n : Fin C → ℝ) (hn : ∀ c, 0 < n c) (r : ℝ × ℝ) (h : m.solve n = .ok r) (hf : ∃ c, m.free c)
    (hq : m.Qfixed ≠ 0 ∨ ((∃ c, m.free c ∧ 0 < (m.comp c).Q) ∧ ∃ c, m.free c ∧ (m.comp c).Q < 0)) : ∃! b, m.Neutral n b := by
  classical
  have key : ((∃ c, m.free c ∧ 0 < (m.comp c).Q) ∨ 0 < m.Qfixed) ∧ ((∃ c, m.free c ∧ (m.comp c).Q < 0) ∨ m.Qfixed < 0) := by
    rcases hq with hq | hq
    · unfold MixF.solve at h
      rw [if_neg (not_not.2 hf)] at h
      split_ifs at h with h1 h2
      rw [not_and, not_lt, add_zero] at h1
      rw [not_and, not_lt, add_zero] at h2
      refine ⟨?_, ?_⟩
      · by_cases hp : ∃ c, m.free c ∧ 0 < (m.comp c).Q
        · exact Or.inl hp
        · exact Or.inr (lt_of_le_of_ne (h1 hp) (Ne.symm hq))
      · by_cases hp : ∃ c, m.free c ∧ (m.comp c).Q < 0
        · exact Or.inl hp
        · exact Or.inr (lt_of_le_of_ne (h2 hp) hq)
    · exact ⟨Or.inl hq.1, Or.inl hq.2⟩
  obtain ⟨b, hb⟩ := root_exists (s := m.freeSet) (q := fun c => (m.comp c).Q) (n := n) (Qf := m.Qfixed) (fun i hi => (m.mem_free.1 hi).1) (fun i _ => hn i)
    (key.1.imp (fun ⟨c, h1, h2⟩ => ⟨c, m.mem_free.2 h1, h2⟩) id) (key.2.imp (fun ⟨c, h1, h2⟩ => ⟨c, m.mem_free.2 h1, h2⟩) id)
  exact ⟨b, (m.neutral_iff n b).2 hb, fun b' hb' => neutral_unique m hn hf hb' ((m.neutral_iff n b).2 hb)⟩

/-- **C95, partial.** The cell is neutral within the tolerance if one of the first ten iterates of Newton's method meets it (or if no component can adapt); the slope used for the gradient is then that at the potential found.
Missing: nothing tests this (`C95_newton_fails`). -/
theorem C95_neutral_partial (g : Grid) (hg : GridOK g) (m : MixF C) (psi : m.State) (hc : ∀ c, 0 < m.count g psi c) (b Qp : ℝ) (hs : m.solve (m.count g psi) = .ok (b, Qp))
    (hit : ∃ k < 10, |m.total (m.count g psi) (newtonSeq (m.total (m.count g psi)) k)| < |m.Qtol|) :
    |m.cellCharge g psi b| ≤ |m.Qtol| ∧ ((∃ c, m.free c) → Qp = deriv (m.total (m.count g psi)) b) := by
  classical
  rw [cellCharge_eq g m hg.1 hg.2 psi hc]
  by_cases hf : ∃ c, m.free c
  · obtain ⟨k, h1, h2⟩ := hit
    have h := newton_hit m (m.count g psi) 10 0 0 ⟨k, Nat.zero_le _, by omega, h2⟩
    rw [show (newtonSeq (m.total (m.count g psi)) 0, (0 : ℝ)) = (0, 0) from rfl, ← solve_free m hf hs] at h
    exact ⟨h.1.le, fun _ => by rw [m.total_deriv]; exact h.2⟩
  · refine ⟨?_, fun h => absurd h hf⟩
    unfold MixF.solve at hs
    rw [if_pos hf] at hs
    split_ifs at hs with h
    rw [m.total_eq, charge, show m.freeSet = ∅ from Finset.eq_empty_of_forall_notMem fun c hc => hf ⟨c, m.mem_free.1 hc⟩, Finset.sum_empty, add_zero]
    exact not_lt.1 h

/-! ### Where the properties fail -/

/-- A cell with one grid point. -/
def g1 : Grid := ⟨⟨1, 1, 1⟩, fun i k => if i = k then 1 else 0, 1, 1⟩
theorem g1_ok : GridOK g1 := ⟨⟨by decide, by decide, by decide⟩, by norm_num [g1, nr]⟩

/-- A salt. -/
def salt : Fin 2 → Ion := ![⟨0, 1, fun _ => 0, 0, 1⟩, ⟨0, 1, fun _ => 0, 0, -1⟩]
def saltMix : MixF 2 := ionMix g1 salt 1 0 0 1e-12 []

/-- There is far more of the cation. -/
def saltState : saltMix.State := fun c _ _ => if c = 0 then Real.log 2 + 20 else 0

theorem sum_g1 (f : Nat → ℝ) : ∑ j ∈ Finset.range (nr g1.S), f j = f 0 := by rw [show nr g1.S = 1 from rfl, Finset.sum_range_one]

theorem ion_count {C : Nat} (ion : Fin C → Ion) (hN : ∀ c, 0 < (ion c).Nbulk) (T p Qext Qtol : ℝ) (terms : List (Term fun _ : Fin C => 0 + 1)) (psi : (ionMix g1 ion T p Qext Qtol terms).State) (c : Fin C) :
    (ionMix g1 ion T p Qext Qtol terms).count g1 psi c = (ion c).Nbulk * Real.exp (psi c (0 : Fin 1) 0) := by
  rw [count_eq g1 _ g1_ok.1 g1_ok.2, integ, sum_g1, dens0_nonneg _ (mul_pos (hN c) (Real.exp_pos _)).le]
  show (1 : ℝ) * ((ion c).Nbulk * Real.exp (psi c (0 : Fin 1) 0)) / ((1 : Nat) : ℝ) = _
  norm_num

theorem salt_Q (c : Fin 2) : (saltMix.comp c).Q = if c = 0 then 1 else -1 := by
  show (salt c).Q = _
  fin_cases c <;> simp [salt]

theorem salt_Nnorm (c : Fin 2) : (saltMix.comp c).Nnorm = 0 := by
  show (salt c).Nnorm = _
  fin_cases c <;> simp [salt]

theorem salt_free (c : Fin 2) : saltMix.free c := by
  refine ⟨?_, by rw [salt_Nnorm]; exact lt_irrefl _⟩
  rw [salt_Q]; split_ifs <;> norm_num

theorem salt_count (c : Fin 2) : saltMix.count g1 saltState c = if c = 0 then 2 * Real.exp 20 else 1 := by
  refine (ion_count salt (by intro c; fin_cases c <;> norm_num [salt]) 1 0 0 1e-12 [] saltState c).trans ?_
  fin_cases c
  · simp [salt, saltState, Real.exp_add, Real.exp_log]
  · simp [salt, saltState]

theorem salt_total (b : ℝ) : saltMix.total (saltMix.count g1 saltState) b = 2 * Real.exp 20 * Real.exp (-b) - Real.exp b := by
  simp [MixF.total, salt_count, salt_Q, salt_Nnorm, show saltMix.Qext = 0 from rfl]
  ring

theorem salt_prime (b : ℝ) : saltMix.Qprime (saltMix.count g1 saltState) b = -(2 * Real.exp 20 * Real.exp (-b) + Real.exp b) := by
  classical
  simp [MixF.Qprime, salt_count, salt_free, salt_Q]
  ring

/-- **C95, neutrality does not hold.** A salt without external charge: there is a neutral state, but the iteration ends after ten steps, at a charge above 20000, without any error. -/
theorem C95_newton_fails : (∀ c, 0 < saltMix.count g1 saltState c) ∧ (∃ b, saltMix.Neutral (saltMix.count g1 saltState) b) ∧
    ∃ b Qp, saltMix.solve (saltMix.count g1 saltState) = .ok (b, Qp) ∧ 20000 < saltMix.cellCharge g1 saltState b := by
  classical
  have hp : ∀ c, 0 < saltMix.count g1 saltState c := fun c => by
    rw [salt_count]; split_ifs
    · positivity
    · exact one_pos
  have hs : saltMix.solve (saltMix.count g1 saltState) = .ok (saltMix.newton (saltMix.count g1 saltState) 10 (0, 0)) := by
    unfold MixF.solve
    rw [if_neg (not_not.2 ⟨0, salt_free 0⟩), if_neg, if_neg]
    · rintro ⟨h, _⟩
      exact h ⟨1, salt_free 1, by rw [salt_Q]; norm_num⟩
    · rintro ⟨h, _⟩
      exact h ⟨0, salt_free 0, by rw [salt_Q]; norm_num⟩
  obtain ⟨b, Qp, hbq⟩ : ∃ b Qp, saltMix.newton (saltMix.count g1 saltState) 10 (0, 0) = (b, Qp) := ⟨_, _, rfl⟩
  refine ⟨hp, ⟨Real.log 2 / 2 + 10, ?_⟩, b, Qp, by rw [hs, hbq], ?_⟩
  · show saltMix.total _ _ = 0
    rw [salt_total, sub_eq_zero, Real.exp_neg, ← div_eq_mul_inv, div_eq_iff (Real.exp_pos _).ne', ← Real.exp_add, show Real.log 2 / 2 + 10 + (Real.log 2 / 2 + 10) = Real.log 2 + 20 by ring, Real.exp_add, Real.exp_log (by norm_num)]
  · rw [cellCharge_eq g1 _ g1_ok.1 g1_ok.2 _ hp]
    have hle := newton_le saltMix (saltMix.count g1 saltState) (fun b => by
      rw [salt_total, salt_prime, div_neg, neg_neg, div_le_one (by positivity)]
      have := Real.exp_pos b
      linarith) 10 (0, 0)
    rw [hbq] at hle
    norm_num at hle
    rw [salt_total]
    have h1 : Real.exp b ≤ Real.exp 10 := Real.exp_le_exp.2 hle
    have h2 : Real.exp (-10) ≤ Real.exp (-b) := Real.exp_le_exp.2 (by linarith)
    have h3 : Real.exp 20 * Real.exp (-10) = Real.exp 10 := by rw [← Real.exp_add]; norm_num
    have h4 : 2 * Real.exp 20 * Real.exp (-10) ≤ 2 * Real.exp 20 * Real.exp (-b) := mul_le_mul_of_nonneg_left h2 (by positivity)
    have h5 : (20000 : ℝ) < Real.exp 10 := by
      have := Real.exp_one_gt_d9
      calc (20000 : ℝ) < 2.7182818283 ^ 10 := by norm_num
        _ ≤ Real.exp 1 ^ 10 := pow_le_pow_left₀ (by norm_num) this.le 10
        _ = Real.exp 10 := by rw [← Real.exp_nat_mul]; norm_num
    nlinarith

/-- A fluid whose only ion is a cation. -/
def cation : Fin 1 → Ion := fun _ => ⟨0, 1, fun _ => 0, 0, 1⟩
def cationMix : MixF 1 := ionMix g1 cation 1 0 0 1e-12 []
def cationState : cationMix.State := fun _ _ _ => 0

/-- **C95, the test whether neutrality is possible does not hold.** A fluid of a single charged component without any other charge: no potential makes the cell neutral, but there is no error, and the charge that is left depends on the number of iterations. -/
theorem C95_one_sign_fails : (∀ c, 0 < cationMix.count g1 cationState c) ∧ (∀ b, ¬ cationMix.Neutral (cationMix.count g1 cationState) b) ∧
    ∃ b Qp, cationMix.solve (cationMix.count g1 cationState) = .ok (b, Qp) ∧ |cationMix.Qtol| < cationMix.cellCharge g1 cationState b := by
  classical
  have hc : ∀ c, cationMix.count g1 cationState c = 1 := fun c => by
    refine (ion_count cation (by intro c; norm_num [cation]) 1 0 0 1e-12 [] cationState c).trans ?_
    simp [cation, cationState]
  have eQ : ∀ c, (cationMix.comp c).Q = 1 := fun c => rfl
  have eN : ∀ c, (cationMix.comp c).Nnorm = 0 := fun c => rfl
  have eX : cationMix.Qext = 0 := rfl
  have hf : ∀ c, cationMix.free c := fun c => ⟨by rw [eQ]; exact one_ne_zero, by rw [eN]; exact lt_irrefl _⟩
  have ht : ∀ b, cationMix.total (cationMix.count g1 cationState) b = Real.exp (-b) := fun b => by
    simp [MixF.total, hc, eQ, eN, eX]
  have hQ : ∀ b, cationMix.Qprime (cationMix.count g1 cationState) b = -Real.exp (-b) := fun b => by
    simp [MixF.Qprime, hc, hf, eQ]
  have hp : ∀ c, 0 < cationMix.count g1 cationState c := fun c => by rw [hc]; exact one_pos
  have hs : cationMix.solve (cationMix.count g1 cationState) = .ok (cationMix.newton (cationMix.count g1 cationState) 10 (0, 0)) := by
    unfold MixF.solve
    rw [if_neg (not_not.2 ⟨0, hf 0⟩), if_neg, if_neg]
    · rintro ⟨_, h⟩
      simp [MixF.Qfixed, MixF.fixed, eN, eX] at h
    · rintro ⟨h, _⟩
      exact h ⟨0, hf 0, by rw [eQ]; exact one_pos⟩
  obtain ⟨b, Qp, hbq⟩ : ∃ b Qp, cationMix.newton (cationMix.count g1 cationState) 10 (0, 0) = (b, Qp) := ⟨_, _, rfl⟩
  refine ⟨hp, fun b hb => ?_, b, Qp, by rw [hs, hbq], ?_⟩
  · have : cationMix.total (cationMix.count g1 cationState) b = 0 := hb
    rw [ht] at this
    exact (Real.exp_pos _).ne' this
  · rw [cellCharge_eq g1 _ g1_ok.1 g1_ok.2 _ hp]
    have hle := newton_le cationMix (cationMix.count g1 cationState) (fun b => by
      rw [ht, hQ, div_neg, neg_neg, div_self (Real.exp_pos _).ne']) 10 (0, 0)
    rw [hbq] at hle
    norm_num at hle
    rw [ht]
    have h2 : Real.exp (-10) ≤ Real.exp (-b) := Real.exp_le_exp.2 (by linarith)
    refine lt_of_lt_of_le ?_ h2
    have h5 : Real.exp 10 < 60000 := by
      have := Real.exp_one_lt_d9
      calc Real.exp 10 = Real.exp 1 ^ 10 := by rw [← Real.exp_nat_mul]; norm_num
        _ ≤ 2.7182818286 ^ 10 := pow_le_pow_left₀ (Real.exp_pos _).le this.le 10
        _ < 60000 := by norm_num
    rw [Real.exp_neg, show |cationMix.Qtol| = 1e-12 by rw [show cationMix.Qtol = 1e-12 from rfl]; norm_num]
    rw [lt_inv_comm₀ (by norm_num) (Real.exp_pos _)]
    norm_num
    linarith

/-- One orientation of a molecule with dipole moment along `x`. -/
def dipole : Orient 0 1 := ⟨1, 0, 1, 1, fun _ => 1, fun _ _ => [fun _ => 0], fun _ k => if k = 0 then 1 else 0, .constant, fun _ _ => 0, fun _ => 1, 1⟩
/-- Two molecules of it. -/
def dipoleMix : MixF 1 := ⟨fun _ => 0, fun _ => ⟨dipole.gas g1 .pomega, 1, 2, 0⟩, 1, 0, 0, 1e-12, []⟩

section
variable (x : ℝ)

/-- Its states. -/
def dipoleState : dipoleMix.State := fun _ _ _ => x

theorem dip_No (w : Fin 1) (j : Nat) : dipole.No g1 .pomega (fun _ _ => x) w j = Real.exp x := by
  show (1 : ℝ) * 1 * Real.exp x = _
  ring

theorem dip_N (i : Fin 1) : dipole.N g1 .pomega (fun _ _ => x) i 0 = Real.exp x := by
  show ∑ w : Fin 1, ([fun _ => (0 : ℝ)].map fun f => TransOp.run .constant g1.S f (dipole.No g1 .pomega (fun _ _ => x) w) 0).sum = _
  simp only [List.map_cons, List.map_nil, List.sum_cons, List.sum_nil, add_zero]
  rw [Fin.sum_univ_one, run_uniform g1.S .constant g1_ok.1 _ (Real.exp x) _ (fun j _ => dip_No x 0 j) 0 (by decide)]

theorem dip_P (k : Fin 3) (j : Nat) : dipole.P g1 .pomega (fun _ _ => x) k j = if k = 0 then Real.exp x else 0 := by
  show ∑ w : Fin 1, (if k = 0 then (1 : ℝ) else 0) * dipole.No g1 .pomega (fun _ _ => x) w j = _
  rw [Fin.sum_univ_one, dip_No]
  split_ifs <;> ring

theorem dip_EcorrP (k : Fin 3) : dipole.EcorrP g1 .pomega (fun _ _ => x) k 0 = if k = 0 then Real.exp x else 0 := by
  rw [EcorrP_eq, corrK, ← dip_P x k 0]
  have : wMul (fun i => dipole.mfKernel i * dipole.mfKernel i * dipole.corrPrefac) (fftJ g1.S (dipole.P g1 .pomega (fun _ _ => x) k)) = fftJ g1.S (dipole.P g1 .pomega (fun _ _ => x) k) := by
    funext i; simp [wMul, dipole]
  rw [this, fftI_fftJ _ g1_ok.1 _ _ (by decide)]

theorem dip_Ecorr : dipole.Ecorr g1 .pomega (fun _ _ => x) = 0.5 * (Real.exp x * Real.exp x) := by
  unfold Orient.Ecorr dotF
  simp only [sum_g1, dip_EcorrP, dip_P]
  simp [g1]

theorem dip_S : dipole.S g1 .pomega (fun _ _ => x) = Real.exp x * x := by
  unfold Orient.S dotF
  simp only [sum_g1, dip_No]
  rw [Fin.sum_univ_one]
  show (1 : ℝ) * (Real.exp x * x) = _
  ring

theorem dip_dens (i : Fin (dipoleMix.ns 0 + 1)) : dipoleMix.dens0 (dipoleState x) 0 i 0 = Real.exp x := by
  have e : (dipoleMix.comp 0).gas.N (dipoleState x 0) i 0 = Real.exp x := dip_N x i
  rw [dens0_nonneg dipoleMix (by rw [e]; exact (Real.exp_pos x).le), e]

theorem dip_count (c : Fin 1) : dipoleMix.count g1 (dipoleState x) c = Real.exp x := by
  rw [Subsingleton.elim c 0, count_eq g1 _ g1_ok.1 g1_ok.2, integ, sum_g1, dip_dens]
  show (1 : ℝ) * Real.exp x / ((1 : Nat) : ℝ) = _
  norm_num

theorem dip_ns (b : ℝ) (c : Fin 1) : dipoleMix.nscale (dipoleMix.count g1 (dipoleState x)) b c = 2 / Real.exp x := by
  classical
  unfold MixF.nscale MixF.fixed
  rw [if_pos (show (0 : ℝ) < (dipoleMix.comp c).Nnorm from (by norm_num : (0 : ℝ) < 2)), dip_count]
  rfl

theorem dip_Nsc (ns : Fin 1 → ℝ) (hns : ns 0 = 2 / Real.exp x) (i : Fin (dipoleMix.ns 0 + 1)) : dipoleMix.N g1 (dipoleState x) ns 0 i 0 = 2 := by
  rw [N_eq g1 _ g1_ok.1 _ _ _ _ 0 (by decide), dip_dens, hns]
  exact div_mul_cancel₀ _ (Real.exp_pos x).ne'

theorem dip_energy : dipoleMix.exactEnergy g1 (dipoleState x) = some (Real.exp x - 2 + 2 * Real.log 2) := by
  classical
  unfold MixF.exactEnergy
  generalize hns : dipoleMix.nscale (dipoleMix.count g1 (dipoleState x)) (dipoleMix.neutralV (dipoleMix.count g1 (dipoleState x))) = ns
  have h0 : ns 0 = 2 / Real.exp x := by rw [← hns]; exact dip_ns x _ 0
  have hE : (dipoleMix.comp 0).gas.energy (dipoleState x 0) (dipoleMix.N g1 (dipoleState x) ns 0) (ns 0) = -2 + 2 / Real.exp x * (1 * (Real.exp x * x) + 0.5 * (Real.exp x * Real.exp x)) := by
    show ∑ i : Fin (dipoleMix.ns 0 + 1), g1.dV * dotF g1 (dipoleMix.N g1 (dipoleState x) ns 0 i) (fun _ => 0) - (1 + 0) * integ g1 (dipoleMix.N g1 (dipoleState x) ns 0 0) * (1 / ((1 : Nat) : ℝ))
      + ns 0 * (1 * dipole.S g1 .pomega (fun _ _ => x) + dipole.Ecorr g1 .pomega (fun _ _ => x)) = _
    rw [dip_S, dip_Ecorr, integ, sum_g1, dip_Nsc x ns h0, h0]
    simp [dotF, g1]
  have hT : (if ns 0 ≠ 1 then integ g1 (dipoleMix.N g1 (dipoleState x) ns 0 0) * dipoleMix.deltaTs ns 0 else 0) = 2 * (Real.log 2 - x) := by
    have e : integ g1 (dipoleMix.N g1 (dipoleState x) ns 0 0) * dipoleMix.deltaTs ns 0 = 2 * Real.log (ns 0) := by
      rw [integ, sum_g1, dip_Nsc x ns h0]
      show (1 : ℝ) * 2 * (1 * Real.log (ns 0) / ((1 : Nat) : ℝ)) = _
      norm_num
    have e2 : 2 * Real.log (ns 0) = 2 * (Real.log 2 - x) := by rw [h0, Real.log_div (by norm_num) (Real.exp_pos x).ne', Real.log_exp]
    split_ifs with h
    · rw [e, e2]
    · rw [← e2, not_not.1 h]; simp
  unfold MixF.energy
  show addO [some 0, some (∑ c : Fin 1, _), some ((0 : ℝ) * g1.detR)] = _
  rw [Fin.sum_univ_one]
  rw [hE, hT]
  simp only [addO, Option.bind_eq_bind, Option.bind_some, Option.pure_def]
  congr 1
  have := (Real.exp_pos x).ne'
  field_simp
  ring

theorem dip_i (i : Fin (dipoleMix.ns 0 + 1)) : i = 0 := Subsingleton.elim (α := Fin 1) i 0

theorem dip_sum (f : Fin (dipoleMix.ns 0 + 1) → ℝ) : ∑ i, f i = f 0 := Fin.sum_univ_one (fun i : Fin 1 => f i)

theorem dip_PhiN (ns : Fin 1 → ℝ) (h0 : ns 0 = 2) (i : Fin (dipoleMix.ns 0 + 1)) : dipoleMix.PhiN g1 (dipoleState 0) ns 0 i 0 = Real.log 2 := by
  classical
  have h1 : ns 0 ≠ 1 := by rw [h0]; norm_num
  have z : Jdag g1.S ((termSum dipoleMix.terms).GN (dipoleMix.tilde g1 (dipoleState 0) ns) (dipoleMix.P0 (dipoleState 0) ns) 0 i) 0 = 0 := by
    have : (termSum dipoleMix.terms).GN (dipoleMix.tilde g1 (dipoleState 0) ns) (dipoleMix.P0 (dipoleState 0) ns) 0 i = fun _ => 0 := rfl
    rw [this]
    simp [Jdag, fftI]
  have a : (dipoleMix.comp 0).gas.addN (dipoleState 0 0) i 0 = 0 := by
    show (0 : ℝ) - (if i = 0 then (0 : ℝ) * (1 / ((1 : Nat) : ℝ)) else 0) = 0
    simp
  unfold MixF.PhiN
  rw [z, a, if_pos ⟨dip_i i, h1⟩]
  show 0 + 0 + 1 * Real.log (ns 0) / ((1 : Nat) : ℝ) = _
  rw [h0]; simp

theorem dip_PhiScale (ns : Fin 1 → ℝ) (h0 : ns 0 = 2) : dipoleMix.PhiScale g1 (dipoleState 0) ns 0 = 0.5 + Real.log 2 := by
  unfold MixF.PhiScale
  have h0' : ns 0 = 2 / Real.exp 0 := by rw [h0]; simp
  have e1 : (dipoleMix.comp 0).gas.addScale (dipoleState 0 0) = 0.5 := by
    show 1 * dipole.S g1 .pomega (fun _ _ => 0) + dipole.Ecorr g1 .pomega (fun _ _ => 0) = _
    rw [dip_S, dip_Ecorr]; simp
  have e2 : ∀ k, dipoleMix.PhiP g1 (dipoleState 0) ns 0 k = 0 := fun k => rfl
  have e3 : ∑ i, g1.dV * dotF g1 (dipoleMix.N g1 (dipoleState 0) ns 0 i) (dipoleMix.PhiN g1 (dipoleState 0) ns 0 i) / ns 0 = Real.log 2 := by
    rw [dip_sum, dotF, sum_g1, dip_PhiN ns h0, dip_Nsc 0 ns h0', h0]
    simp [g1]
  rw [e1, e3]
  simp only [e2, mul_zero, Finset.sum_const_zero, zero_div, add_zero]

theorem dip_jac (b Qp : ℝ) : dipoleMix.jac (dipoleMix.count g1 (dipoleState 0)) b Qp 0 0 = -2 := by
  classical
  unfold MixF.jac
  rw [if_pos (show dipoleMix.fixed 0 from (by norm_num : (0 : ℝ) < 2)), if_pos rfl, dip_count]
  show -(2 : ℝ) / _ = _
  simp

theorem dip_PhiNtot (ns : Fin 1 → ℝ) (h0 : ns 0 = 2) (J : Fin 1 → Fin 1 → ℝ) (hJ : J 0 0 = -2) (i : Fin (dipoleMix.ns 0 + 1)) : dipoleMix.PhiNtot g1 (dipoleState 0) ns J 0 i 0 = -0.5 := by
  unfold MixF.PhiNtot
  rw [if_pos (dip_i i), Fin.sum_univ_one, dip_PhiScale ns h0, hJ, h0, dip_PhiN ns h0]
  show Real.log 2 + _ / (2 * ((1 : Nat) : ℝ)) = _
  norm_num
  ring

theorem dip_conv (ν : ℝ) (h0 : ν = 2) (Φ : Fin (0 + 1) → Field) (hT : ∀ i, Φ i 0 = -0.5) (w : Fin 1) :
    (1 : ℝ) * ((ν * dipole.No g1 .pomega (fun _ _ => 0) w 0) * dipole.PhiNo g1 .pomega (fun _ _ => 0) Φ (fun _ => 0) ν w 0) = 3 := by
  have hmv : ∑ i : Fin (0 + 1), dipole.move g1 (back (dipole.disp w i)) (Φ i) 0 = -0.5 := by
    have eS : ∀ f : Fin (0 + 1) → ℝ, ∑ x, f x = f 0 := fun f => Fin.sum_univ_one f
    rw [eS]
    show ([fun _ => -(0 : ℝ)].map fun f => TransOp.run .constant g1.S f (Φ 0) 0).sum = _
    simp only [List.map_cons, List.map_nil, List.sum_cons, List.sum_nil, add_zero]
    refine run_uniform g1.S .constant g1_ok.1 _ (-0.5) _ (fun j hj => ?_) 0 (by decide)
    rw [show j = 0 by have : j < 1 := hj; omega]
    exact hT 0
  rw [dip_No, h0]
  unfold Orient.PhiNo
  rw [hmv]
  simp only [dip_EcorrP]
  show (1 : ℝ) * ((2 * Real.exp 0) * (-0.5 + 1 * 0 + (∑ j : Fin 3, (if j = 0 then (1 : ℝ) else 0) * (2 * if j = 0 then Real.exp 0 else 0) + ∑ j : Fin 3, (if j = 0 then (1 : ℝ) else 0) * 0))) = 3
  simp
  norm_num

theorem dip_grad (k : Fin (dipoleMix.comp 0).gas.nI) : dipoleMix.exactGrad g1 (dipoleState 0) 0 k 0 = 3 := by
  unfold MixF.exactGrad
  have h0 : dipoleMix.nscale (dipoleMix.count g1 (dipoleState 0)) (dipoleMix.neutralV (dipoleMix.count g1 (dipoleState 0))) 0 = 2 := (dip_ns 0 _ 0).trans (by simp)
  have hJ := dip_jac (dipoleMix.neutralV (dipoleMix.count g1 (dipoleState 0))) (dipoleMix.Qprime (dipoleMix.count g1 (dipoleState 0)) (dipoleMix.neutralV (dipoleMix.count g1 (dipoleState 0))))
  revert h0 hJ
  show _ → _ → dipoleMix.grad g1 (dipoleState 0) (dipoleMix.nscale (dipoleMix.count g1 (dipoleState 0)) (dipoleMix.neutralV (dipoleMix.count g1 (dipoleState 0))))
    (dipoleMix.jac (dipoleMix.count g1 (dipoleState 0)) (dipoleMix.neutralV (dipoleMix.count g1 (dipoleState 0))) (dipoleMix.Qprime (dipoleMix.count g1 (dipoleState 0)) (dipoleMix.neutralV (dipoleMix.count g1 (dipoleState 0))))) 0 k 0 = 3
  generalize dipoleMix.nscale (dipoleMix.count g1 (dipoleState 0)) (dipoleMix.neutralV (dipoleMix.count g1 (dipoleState 0))) = ns
  generalize dipoleMix.jac (dipoleMix.count g1 (dipoleState 0)) (dipoleMix.neutralV (dipoleMix.count g1 (dipoleState 0))) (dipoleMix.Qprime (dipoleMix.count g1 (dipoleState 0)) (dipoleMix.neutralV (dipoleMix.count g1 (dipoleState 0)))) = J
  intro h0 hJ
  have hT := dip_PhiNtot ns h0 J hJ
  unfold MixF.grad
  generalize dipoleMix.PhiNtot g1 (dipoleState 0) ns J 0 = Φ at hT
  have e2 : dipoleMix.PhiP g1 (dipoleState 0) ns 0 = fun _ => 0 := rfl
  rw [e2]
  exact dip_conv (ns 0) h0 Φ (fun i => hT i) k

/-- **C95, the gradient is not that of the energy** for two dipolar molecules in a cell, of which the scale factor takes care. -/
theorem C95_dipole_fails : (∀ c, 0 < dipoleMix.count g1 (dipoleState 0) c) ∧ (¬ ∃ c, dipoleMix.free c) ∧
    ¬ HasDerivO (fun t => dipoleMix.exactEnergy g1 fun c k j => dipoleState 0 c k j + t * dipoleState 1 c k j)
      (∑ c, ∑ k, ∑ j ∈ Finset.range (nr g1.S), dipoleMix.exactGrad g1 (dipoleState 0) c k j * dipoleState 1 c k j) 0 := by
  refine ⟨fun c => by rw [dip_count]; exact Real.exp_pos _, fun ⟨c, h⟩ => h.2 (by show (0 : ℝ) < 2; norm_num), fun h => ?_⟩
  have e : (∑ c, ∑ k, ∑ j ∈ Finset.range (nr g1.S), dipoleMix.exactGrad g1 (dipoleState 0) c k j * dipoleState 1 c k j) = 3 := by
    rw [Fin.sum_univ_one]
    simp only [sum_g1]
    refine (Fin.sum_univ_one (fun k : Fin 1 => dipoleMix.exactGrad g1 (dipoleState 0) 0 k 0 * dipoleState 1 0 k 0)).trans ?_
    exact (mul_one _).trans (dip_grad _)
  rw [e] at h
  obtain ⟨F, hF, hd⟩ := h
  have hF' : F =ᶠ[𝓝 0] fun t => Real.exp t - 2 + 2 * Real.log 2 := by
    filter_upwards [hF] with t ht
    have : (fun c k j => dipoleState 0 c k j + t * dipoleState 1 c k j) = dipoleState t := by
      funext c k j; show (0 : ℝ) + t * 1 = t; ring
    rw [this, dip_energy] at ht
    exact (Option.some.inj ht).symm
  have hd2 := hd.congr_of_eventuallyEq hF'.symm
  have hd3 : HasDerivAt (fun t : ℝ => Real.exp t - 2 + 2 * Real.log 2) 1 0 := by
    simpa using ((Real.hasDerivAt_exp 0).sub_const 2).add_const (2 * Real.log 2)
  have := hd2.unique hd3
  norm_num at this

end

/-! ### Examples -/

/-- Components of both signs can always make the cell neutral. -/
theorem solvable_both (m : MixF C) (h1 : ∃ c, m.free c ∧ 0 < (m.comp c).Q) (h2 : ∃ c, m.free c ∧ (m.comp c).Q < 0) (n : Fin C → ℝ) (hn : ∀ c, 0 < n c) : ∃ b, m.Neutral n b := by
  obtain ⟨b, hb⟩ := root_exists (s := m.freeSet) (q := fun c => (m.comp c).Q) (n := n) (Qf := m.Qfixed) (fun i hi => (m.mem_free.1 hi).1) (fun i _ => hn i)
    (Or.inl (let ⟨c, h1, h2⟩ := h1; ⟨c, m.mem_free.2 h1, h2⟩)) (Or.inl (let ⟨c, h1, h2⟩ := h2; ⟨c, m.mem_free.2 h1, h2⟩))
  exact ⟨b, (m.neutral_iff n b).2 hb⟩

/-- A salt around an external charge, with repulsion between its ions. -/
def saltTerms : List (Term fun _ : Fin 2 => 0 + 1) :=
  [termCoulomb gEx (fun c _ _ => if c = 0 then 1 else -1) (fun _ _ => 1) false (uni 0.1) (fun _ => 0), termPair gEx 0 0 1 0 2 fun _ => 1]
def saltMix2 : MixF 2 := ionMix gEx salt 1 0 0.8 1e-12 saltTerms

example (psi dpsi : saltMix2.State) : HasDerivO (fun t => saltMix2.exactEnergy gEx fun c k j => psi c k j + t * dpsi c k j)
    (∑ c, ∑ k, ∑ j ∈ Finset.range (nr gEx.S), saltMix2.exactGrad gEx psi c k j * dpsi c k j) 0 := by
  have hQ : ∀ c, (saltMix2.comp c).Q = if c = 0 then 1 else -1 := salt_Q
  have hN : ∀ c, (saltMix2.comp c).Nnorm = 0 := salt_Nnorm
  have hf : ∀ c, saltMix2.free c := fun c => ⟨by rw [hQ]; split_ifs <;> norm_num, by rw [hN]; exact lt_irrefl _⟩
  refine C95_ions gEx gEx_ok (by norm_num [gEx]) salt (by intro c; fin_cases c <;> norm_num [salt]) 1 0 0.8 1e-12 saltTerms saltMix2 rfl psi dpsi
    (fun _ => solvable_both _ ⟨0, hf 0, by rw [hQ]; norm_num⟩ ⟨1, hf 1, by rw [hQ]; norm_num⟩) _ rfl ?_
  intro t ht
  have ht' : t ∈ saltTerms := ht
  rcases List.mem_cons.1 ht' with rfl | ht'
  · exact C95_term_coulomb _ _ gEx gEx_ok gEx_even (by norm_num [gEx]) (by norm_num [gEx]) _ _ _ _ _
  · rw [List.mem_singleton.1 ht']
    exact C95_term_pair _ _ gEx gEx_ok gEx_even _ _ _ _ _ _

example (psi : Fin 1 → Field) : GasGrad g1 1 1 (dipole.gas g1 .pomega) psi 1 := C95_gas_orient_partial g1 g1_ok dipole .pomega (by decide) (fun _ => rfl) psi 1 one_pos (Or.inl rfl)

/-- The same salt with equal densities is neutral at once. -/
def saltEven : saltMix.State := fun _ _ _ => 0

theorem saltEven_count (c : Fin 2) : saltMix.count g1 saltEven c = 1 := by
  refine (ion_count salt (by intro c; fin_cases c <;> norm_num [salt]) 1 0 0 1e-12 [] saltEven c).trans ?_
  fin_cases c <;> simp [salt, saltEven]

example : ∃ k < 10, |saltMix.total (saltMix.count g1 saltEven) (newtonSeq (saltMix.total (saltMix.count g1 saltEven)) k)| < |saltMix.Qtol| := by
  refine ⟨0, by norm_num, ?_⟩
  have : saltMix.total (saltMix.count g1 saltEven) 0 = 0 := by simp [MixF.total, saltEven_count, salt_Q, salt_Nnorm, show saltMix.Qext = 0 from rfl]
  show |saltMix.total (saltMix.count g1 saltEven) 0| < _
  rw [this, show saltMix.Qtol = 1e-12 from rfl]; norm_num

/-- Cations around a positive charge. -/
def cationMix2 : MixF 1 := ionMix g1 cation 1 0 1 1e-12 []

example : cationMix2.solve (fun _ => 1) = .error .die := by
  classical
  have eQ : ∀ c, (cationMix2.comp c).Q = 1 := fun c => rfl
  have eN : ∀ c, (cationMix2.comp c).Nnorm = 0 := fun c => rfl
  have hf : ∀ c, cationMix2.free c := fun c => ⟨by rw [eQ]; exact one_ne_zero, by rw [eN]; exact lt_irrefl _⟩
  unfold MixF.solve
  rw [if_neg (not_not.2 ⟨0, hf 0⟩), if_neg fun h => h.1 ⟨0, hf 0, by rw [eQ]; exact one_pos⟩, if_pos]
  refine ⟨fun ⟨c, _, h⟩ => by rw [eQ] at h; norm_num at h, ?_⟩
  simp [MixF.Qfixed, MixF.fixed, eN, show cationMix2.Qext = 1 from rfl]

end
end Jdftx.Fluid
