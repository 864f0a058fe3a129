import Verif.Lemmas.FluidBulk

/-!
# C96: the bulk fluid at a given pressure
-/
namespace Jdftx.Fluid
open Box ExCorr Cavity Filter Topology
noncomputable section

/-! ### The search for the density -/

/-- **C96 (crossing).** Whatever the equation of state: the density that is found is an end of an interval, of relative width at most 1e-12, at whose lower end the pressure is not above the target,
and at whose upper end it is not below. -/
theorem C96_crossing (P : ℝ → Option ℝ) (p : ℝ) (fuel : Nat) (Nguess n3 N : ℝ) (h0 : 0 < Nguess) (h : findDensity P p fuel Nguess n3 = .ok N) :
    ∃ a b, 0 < a ∧ a < b ∧ b - a ≤ 1e-12 * b ∧ (N = a ∨ N = b) ∧ (∀ v, P a = some v → v ≤ p) ∧ (∀ v, P b = some v → p ≤ v) := by
  obtain ⟨a, b, r1, r2, r3, r4, r5, r6, -⟩ := find_spec P p fuel Nguess n3 N h0 h
  exact ⟨a, b, r1, r2, r4, r3, fun v hv => not_lt.1 fun hl => r5 ⟨v, hv, hl⟩, fun v hv => not_lt.1 fun hl => r6 ⟨v, hv, hl⟩⟩

/-- **C96 (search).** If the pressure is a continuous function of the density around the result, up to a packing limit if there is one, then at a density that agrees with the result to a relative precision of 1.1e-12, the pressure is exactly the target. -/
theorem C96_search (P : ℝ → Option ℝ) (f : ℝ → ℝ) (A : ℝ) (L : WithTop ℝ) (hc : Curve P f A L) (p : ℝ) (fuel : Nat) (Nguess n3 N : ℝ) (h0 : 0 < Nguess)
    (hs : P (startDensity Nguess n3) ≠ none) (hsA : A < startDensity Nguess n3) (h : findDensity P p fuel Nguess n3 = .ok N) (hA : A < 0.999 * N) :
    ∃ x, P x = some p ∧ |N - x| ≤ 1.1e-12 * N := by
  obtain ⟨a, b, r1, r2, r3, r4, r5, r6, r7, -⟩ := find_spec P p fuel Nguess n3 N h0 h
  have hNb : N ≤ b := by rcases r3 with e | e <;> linarith
  have haN : a ≤ N := by rcases r3 with e | e <;> linarith
  have hb : b ≤ 1.0000001 * a := by norm_num at r4 ⊢; linarith
  have haA : A < a := by norm_num at hb hA ⊢; linarith
  have num : ∀ y, A < y → P y ≠ none → (y : WithTop ℝ) < L := fun y hy hn => by
    by_contra hl
    exact hn (hc.nan y hy (not_lt.1 hl))
  have haL : (a : WithTop ℝ) < L := by
    rcases r7 with ⟨v, hv, -⟩ | r7 | r7
    · exact num a haA (by rw [hv]; simp)
    · exact lt_trans (by exact_mod_cast r7) (num _ hsA hs)
    · rw [r7]; exact num _ hsA hs
  obtain ⟨x, hx1, hx2, hx3, hx4⟩ := curve_root P p f A L hc a b haA r2 haL r5 r6
  refine ⟨x, by rw [hc.val x (lt_of_lt_of_le haA hx1) hx3, hx4], ?_⟩
  rw [abs_le]
  norm_num at r4 ⊢
  rcases r3 with e | e <;> rw [e] at hNb haN ⊢ <;> constructor <;> linarith

/-- **C96 (termination).** The search ends if the pressure is at most the target at small densities, and not below it at large ones. -/
theorem C96_terminates (P : ℝ → Option ℝ) (p Nguess n3 : ℝ) (h0 : 0 < Nguess) (hlo : ∃ ε > 0, ∀ N, 0 < N → N < ε → ∀ v, P N = some v → v ≤ p) (hhi : ∃ B, ∀ N ≥ B, ∀ v, P N = some v → p ≤ v) :
    ∃ K, ∀ fuel ≥ K, ∃ N, findDensity P p fuel Nguess n3 = .ok N := by
  obtain ⟨ε, he, h1⟩ := hlo
  obtain ⟨B, h2⟩ := hhi
  refine find_terminates P p Nguess n3 h0 (fun _ => ⟨ε, he, fun N a b => ?_⟩) ⟨B, fun N a => ?_⟩
  · rintro ⟨v, hv, hl⟩; exact not_lt.2 (h1 N a b v hv) hl
  · rintro ⟨v, hv, hl⟩; exact not_lt.2 (h2 N a v hv) hl

/-- The pressure of an ideal gas, without excess energies. -/
theorem ideal_pressure (T Nb N : ℝ) : computeP (C := 1) (ns := fun _ => 1) (uSum []) (fun _ _ => 1) (fun _ => Nb) T N = some (N * T) := by
  simp [computeP, uniformEx, uSum, addO]

/-- **C96 (tension).** At a negative target pressure, the search never ends for an ideal gas, although the program accepts such a target. -/
theorem C96_negative_fails (T Nb p n3 : ℝ) (hT : 0 < T) (hb : 0 < Nb) (hp : p < 0) (fuel : Nat) :
    findDensity (computeP (C := 1) (ns := fun _ => 1) (uSum []) (fun _ _ => 1) (fun _ => Nb) T) p fuel Nb n3 = .error .diverge := by
  set P := computeP (C := 1) (ns := fun _ => 1) (uSum []) (fun _ _ => 1) (fun _ => Nb) T with hP
  have hg : ∀ N, 0 < N → gtO (P N) p := fun N hN => ⟨N * T, by rw [hP, ideal_pressure T Nb N], lt_trans hp (mul_pos hN hT)⟩
  have hd : ∀ k N, 0 < N → bracketDown P p k N = .error .diverge := by
    intro k
    induction k with
    | zero => intro N _; rfl
    | succ k ih =>
      intro N hN
      unfold bracketDown
      have h1 : 0 < 0.99 * N := by linarith
      simp only [if_pos (hg _ h1)]
      exact ih _ h1
  have hs := start_pos Nb n3 hb
  unfold findDensity
  simp only [if_pos (hg _ hs), hd fuel _ hs]
  rfl

/-! ### Thermodynamics -/

/-- **C96 (chemical potential).** What `initialize` takes as chemical potentials are the derivatives of the excess energy density with respect to the densities of the components. -/
theorem C96_potential {C : Nat} {ns : Fin C → Nat} (u : UTerm ns) (mult : (c : Fin C) → Fin (ns c) → Nat) (Nmol d : Fin C → ℝ) (h : UGrad u fun c i => Nmol c * mult c i) :
    ∃ a mu, uniformEx u mult Nmol = some (a, mu) ∧ HasDerivO (fun t => u.E fun c i => (Nmol c + t * d c) * mult c i) (∑ c, mu c * d c) 0 := uniform_deriv u mult Nmol d h

/-- **C96 (pressure).** `compute_p` returns minus the derivative of the free energy with respect to the volume, at constant numbers of molecules and temperature. -/
theorem C96_pressure {C : Nat} {ns : Fin C → Nat} (u : UTerm ns) (mult : (c : Fin C) → Fin (ns c) → Nat) (T : ℝ) (Nbulk : Fin C → ℝ) (hC : 0 < C) (hb : ∀ c, 0 < Nbulk c) (Ntot : ℝ) (hN : 0 < Ntot)
    (h : UGrad u fun c i => portions Nbulk Ntot c * mult c i) (V : ℝ) (hV : 0 < V) :
    ∃ P, computeP u mult Nbulk T Ntot = some P ∧ HasDerivO (helmholtz u mult T fun c => V * portions Nbulk Ntot c) (-P) V := by
  have : Nonempty (Fin C) := ⟨⟨0, hC⟩⟩
  have hs : 0 < ∑ c, Nbulk c := Finset.sum_pos (fun c _ => hb c) Finset.univ_nonempty
  obtain ⟨a, mu, e, hd⟩ := pressure_deriv u mult T (portions Nbulk Ntot) (fun c => mul_pos (div_pos hN hs) (hb c)) V hV h
  refine ⟨Ntot * T - a + ∑ c, portions Nbulk Ntot c * mu c, by unfold computeP; rw [e]; rfl, ?_⟩
  rwa [portions_sum Nbulk hs Ntot] at hd

/-- **C96 (contributions).** The contributions to the uniform fluid report their derivatives: hard spheres and bonds where the formula is regular, equations of state where they report theirs, and mixing functionals. -/
theorem C96_uniform_terms_partial {C : Nat} {ns : Fin C → Nat} (n : (c : Fin C) → Fin (ns c) → ℝ) :
    (∀ l : List (UTerm ns), (∀ t ∈ l, UGrad t n) → UGrad (uSum l) n) ∧
    UGrad uCoulomb n ∧
    (∀ (m : Mix C) (pick : (c : Fin C) → Fin (m.ns c) → Fin (ns c)), (URegular m fun c s => n c (pick c s)) → UGrad (uSpheres m pick) n) ∧
    (∀ (c : Fin C) (s : Fin (ns c)) (mult0 : Nat) (e : ℝ → Option (ℝ × ℝ)), mult0 ≠ 0 →
      HasDerivO (fun x => (e x).map Prod.fst) (((e (n c s / mult0)).map Prod.snd).getD 0) (n c s / mult0) → UGrad (uEos c s mult0 e) n) ∧
    ∀ (c1 : Fin C) (s1 : Fin (ns c1)) (c2 : Fin C) (s2 : Fin (ns c2)) (a : ℝ) (w : Nat → ℝ), UGrad (uPair c1 s1 c2 s2 a w) n :=
  ⟨fun l h => usum_grad l n h, ucoulomb_grad n, fun m pick hr => uspheres_grad m pick n hr, fun c s mult0 e h0 hr => ueos_grad c s mult0 h0 e n hr, fun c1 s1 c2 s2 a w => upair_grad c1 s1 c2 s2 a w n⟩

/-- The contribution of a mixture that consists of its hard spheres. -/
def allSpheres {C : Nat} (m : Mix C) : UTerm m.ns := uSpheres m fun _ s => s

theorem single_tot (m : Mix 1) (hs : m.ns 0 = 1) (w : Sphere → Nat → ℝ) (N : ℝ) : wtotU m w (single m N) = w (m.sphere 0 ⟨0, by omega⟩) 0 * N := by
  unfold wtotU wsumU
  rw [Fin.sum_univ_one]
  rw [Finset.sum_eq_single (⟨0, by omega⟩ : Fin (m.ns 0))]
  · rfl
  · intro s _ h; exfalso; apply h; apply Fin.ext; have := s.2; simp only []; omega
  · intro h; exact absurd (Finset.mem_univ _) h

theorem single_regular (m : Mix 1) (hs : m.ns 0 = 1) (R N : ℝ) (hm : IsSingle m hs R) (hN : 0 < N) (hR : 0 < R) (h1 : 4 * Real.pi * R ^ 3 / 3 * N < 1) (h5 : 0.005 < 4 * Real.pi * R ^ 3 / 3 * N) :
    URegular m (single m N) := by
  have hpi := Real.pi_pos
  obtain ⟨hw, hb⟩ := hm
  simp only [fmtWeight0, Prod.mk.injEq] at hw
  obtain ⟨w0, w1, w2, w3⟩ := hw
  have t0 := single_tot m hs Sphere.w0 N
  have t1 := single_tot m hs Sphere.w1 N
  have t2 := single_tot m hs Sphere.w2 N
  have t3 := single_tot m hs Sphere.w3 N
  rw [w0] at t0; rw [w1] at t1; rw [w2] at t2; rw [w3] at t3
  have e3 : 4 * Real.pi * R ^ 3 / 3 * 1 * (1 * (1 + 3 * (0 / R) ^ 2) + 0) * N = 4 * Real.pi * R ^ 3 / 3 * N := by ring
  rw [e3] at t3
  refine ⟨by rw [t0]; positivity, Or.inr ?_, fun c b hbb => ?_⟩
  · simp only [fmtU, t0, t1, t2, t3]
    refine ⟨by positivity, by positivity, by positivity, by linarith, h1, ?_, ?_⟩
    · intro h; norm_num at h5 h; linarith
    · intro h; linarith
  · have : c = 0 := Subsingleton.elim _ _
    subst this
    rw [hb] at hbb
    exact absurd hbb (by simp)

theorem cs_deriv (T v N : ℝ) (h : v * N < 1) : HasDerivAt (fun N => T * N * carnahanStarling (v * N)) (T * carnahanStarling (v * N) + T * N * (v * ((4 - 2 * (v * N)) / (1 - v * N) ^ 3))) N := by
  have h0 : 1 - v * N ≠ 0 := by linarith
  have e1 : HasDerivAt (fun N => v * N) v N := by simpa using (hasDerivAt_id N).const_mul v
  have e2 := e1.mul ((e1.const_mul 3).const_sub 4)
  have e3 := (e1.const_sub 1).pow 2
  have e4 := e2.div e3 (pow_ne_zero 2 h0)
  have e5 := ((hasDerivAt_id N).const_mul T).mul e4
  refine (e5.congr_of_eventuallyEq (Eventually.of_forall fun x => ?_)).congr_deriv ?_
  · simp [carnahanStarling]
  · simp only [carnahanStarling, Pi.mul_apply, Pi.pow_apply, id_eq, Pi.div_apply]
    generalize v * N = η at h0
    field_simp
    ring

/-- **C96 (hard spheres).** For one kind of hard sphere, `compute_p` returns the pressure of Carnahan and Starling (packing fraction above 0.005 and below 1), and no number at packing fraction 1 and above. -/
theorem C96_carnahan_starling (m : Mix 1) (hs : m.ns 0 = 1) (R : ℝ) (hm : IsSingle m hs R) (hR : 0 < R) (hT : 0 ≤ m.T) (Nb : ℝ) (hb : 0 < Nb) (N : ℝ) (hN : 0 < N) :
    (0.005 < 4 * Real.pi * R ^ 3 / 3 * N → 4 * Real.pi * R ^ 3 / 3 * N < 1 → computeP (allSpheres m) (fun _ _ => 1) (fun _ => Nb) m.T N = some (pressureCS m.T (4 * Real.pi * R ^ 3 / 3) N)) ∧
    (1 ≤ 4 * Real.pi * R ^ 3 / 3 * N → computeP (allSpheres m) (fun _ _ => 1) (fun _ => Nb) m.T N = none) := by
  have hpi := Real.pi_pos
  have hpo : portions (C := 1) (fun _ => Nb) N = fun _ => N := by
    funext c; unfold portions; rw [Fin.sum_univ_one]; field_simp
  have hsite : (siteN (ns := m.ns) (fun _ _ => 1) fun _ => N) = single m N := by funext c s; simp [siteN, single]
  constructor
  · intro h5 h1
    have hreg := single_regular m hs R N hm hN hR h1 h5
    have hg : UGrad (allSpheres m) (siteN (ns := m.ns) (fun _ _ => 1) fun _ => N) := by
      rw [hsite]; exact uspheres_grad m (fun _ s => s) _ hreg
    obtain ⟨a, mu, e, hd⟩ := uniform_deriv (allSpheres m) (fun _ _ => 1) (fun _ => N) (fun _ => 1) hg
    rw [Fin.sum_univ_one, mul_one] at hd
    -- the energy near this density
    set v := 4 * Real.pi * R ^ 3 / 3 with hv
    have hE : ∀ x, 0 < x → 0.005 ≤ v * x → v * x < 1 → (allSpheres m).E (siteN (ns := m.ns) (fun _ _ => 1) fun _ => x) = some (m.T * x * carnahanStarling (v * x)) := by
      intro x hx h5 h1
      have hsx : (siteN (ns := m.ns) (fun _ _ => 1) fun _ => x) = single m x := by funext c s; simp [siteN, single]
      obtain ⟨E, e1, e2⟩ := C93_carnahan_starling m hs R x hm hT hx hR h1
      rw [if_neg (not_lt.2 h5)] at e2
      have e3 : E = m.T * x * carnahanStarling (v * x) := by
        have := abs_eq_zero.1 (le_antisymm e2 (abs_nonneg _)); linarith
      rw [hsx, ← e3, ← e1]
      rfl
    have ha : a = m.T * N * carnahanStarling (v * N) := by
      unfold uniformEx at e
      rw [hE N hN h5.le h1] at e
      exact (congrArg Prod.fst (Option.some.inj e)).symm
    have hmu : mu 0 = m.T * carnahanStarling (v * N) + m.T * N * (v * ((4 - 2 * (v * N)) / (1 - v * N) ^ 3)) := by
      obtain ⟨F, hF, hFd⟩ := hd
      have hc := cs_deriv m.T v N h1
      have hl : HasDerivAt (fun t : ℝ => N + t * 1) 1 0 := by simpa using (hasDerivAt_id (0 : ℝ)).const_add N
      have hc' : HasDerivAt (fun t : ℝ => m.T * (N + t * 1) * carnahanStarling (v * (N + t * 1))) (m.T * carnahanStarling (v * N) + m.T * N * (v * ((4 - 2 * (v * N)) / (1 - v * N) ^ 3))) 0 := by
        have := HasDerivAt.comp (x := (0 : ℝ)) (h := fun t : ℝ => N + t * 1) (h₂ := fun N => m.T * N * carnahanStarling (v * N)) (by simpa using hc) hl
        exact this.congr_deriv (mul_one _)
      have hcont : ContinuousAt (fun t : ℝ => N + t * 1) 0 := hl.continuousAt
      have i1 : ∀ᶠ t in 𝓝 (0 : ℝ), 0 < N + t * 1 := hcont.eventually (lt_mem_nhds (by simpa using hN))
      have hcv : ContinuousAt (fun t : ℝ => v * (N + t * 1)) 0 := hcont.const_mul v
      have i2 : ∀ᶠ t in 𝓝 (0 : ℝ), 0.005 < v * (N + t * 1) := hcv.eventually (lt_mem_nhds (by simpa using h5))
      have i3 : ∀ᶠ t in 𝓝 (0 : ℝ), v * (N + t * 1) < 1 := hcv.eventually (gt_mem_nhds (by simpa using h1))
      have he : F =ᶠ[𝓝 0] fun t : ℝ => m.T * (N + t * 1) * carnahanStarling (v * (N + t * 1)) := by
        filter_upwards [hF, i1, i2, i3] with t ht j1 j2 j3
        have := hE _ j1 j2.le j3
        rw [this] at ht
        exact (Option.some.inj ht).symm
      exact hFd.unique (hc'.congr_of_eventuallyEq he)
    unfold computeP
    rw [hpo, e, Option.map_some, Fin.sum_univ_one]
    congr 1
    show N * m.T - a + N * mu 0 = _
    rw [ha, hmu]
    unfold pressureCS carnahanStarling
    have h0 : 1 - v * N ≠ 0 := by linarith
    have e3 : (1 - v * N) ^ 3 ≠ 0 := pow_ne_zero 3 h0
    have e2 : (1 - v * N) ^ 2 ≠ 0 := pow_ne_zero 2 h0
    clear_value v
    rw [eq_div_iff e3]
    have y1 : v * N * (4 - 3 * (v * N)) / (1 - v * N) ^ 2 * (1 - v * N) ^ 3 = v * N * (4 - 3 * (v * N)) * (1 - v * N) := by
      rw [div_mul_eq_mul_div, div_eq_iff e2]; ring
    have y2 : (4 - 2 * (v * N)) / (1 - v * N) ^ 3 * (1 - v * N) ^ 3 = 4 - 2 * (v * N) := div_mul_cancel₀ _ e3
    linear_combination (N * m.T * v * N) * y2 + (-(m.T * N) + N * m.T) * y1
  · intro h1
    have hE : (allSpheres m).E (siteN (ns := m.ns) (fun _ _ => 1) fun _ => N) = none := by
      rw [hsite]
      show hardSphereU m (single m N) = none
      obtain ⟨hw, hb'⟩ := hm
      simp only [fmtWeight0, Prod.mk.injEq] at hw
      obtain ⟨w0, w1, w2, w3⟩ := hw
      have t0 := single_tot m hs Sphere.w0 N
      have t1 := single_tot m hs Sphere.w1 N
      have t2 := single_tot m hs Sphere.w2 N
      have t3 := single_tot m hs Sphere.w3 N
      rw [w0] at t0; rw [w1] at t1; rw [w2] at t2; rw [w3] at t3
      have e3 : 4 * Real.pi * R ^ 3 / 3 * 1 * (1 * (1 + 3 * (0 / R) ^ 2) + 0) * N = 4 * Real.pi * R ^ 3 / 3 * N := by ring
      rw [e3] at t3
      have hphi : phiFmt (fmtU m (single m N)) = none := by
        unfold phiFmt
        simp only [fmtU, t0, t1, t2, t3]
        rw [if_neg, if_pos h1]
        push Not
        exact ⟨by positivity, by positivity, by positivity, by positivity⟩
      unfold hardSphereU
      rw [if_pos (by rw [t0]; positivity), hphi]
      rfl
    unfold computeP uniformEx
    rw [hpo, hE]
    rfl

/-- The pressure of hard spheres is a curve as the search needs it. -/
theorem cs_curve (m : Mix 1) (hs : m.ns 0 = 1) (R : ℝ) (hm : IsSingle m hs R) (hR : 0 < R) (hT : 0 < m.T) (Nb : ℝ) (hb : 0 < Nb) :
    Curve (computeP (allSpheres m) (fun _ _ => 1) (fun _ => Nb) m.T) (pressureCS m.T (4 * Real.pi * R ^ 3 / 3)) (0.005 / (4 * Real.pi * R ^ 3 / 3)) ((1 / (4 * Real.pi * R ^ 3 / 3) : ℝ) : WithTop ℝ) := by
  have hpi := Real.pi_pos
  have hv : 0 < 4 * Real.pi * R ^ 3 / 3 := by positivity
  have cs := fun N hN => C96_carnahan_starling m hs R hm hR hT.le Nb hb N hN
  generalize 4 * Real.pi * R ^ 3 / 3 = v at hv cs
  have lo : ∀ N, 0.005 / v < N → 0 < N ∧ 0.005 < v * N := fun N h => by
    have h' := (div_lt_iff₀ hv).1 h
    exact ⟨lt_trans (by positivity) h, by linarith⟩
  have hi : ∀ N : ℝ, ((N : ℝ) : WithTop ℝ) < ((1 / v : ℝ) : WithTop ℝ) → v * N < 1 := fun N h => by
    have h' : N < 1 / v := by exact_mod_cast h
    rw [lt_div_iff₀ hv] at h'; linarith
  refine ⟨fun N h1 h2 => (cs N (lo N h1).1).1 (lo N h1).2 (hi N h2), fun N h1 h2 => ?_, fun N h1 h2 => (cs N (lo N h1).1).2 ?_, fun l hl => ?_⟩
  · have h0 : (1 - v * N) ^ 3 ≠ 0 := pow_ne_zero 3 (by linarith [hi N h2])
    unfold pressureCS
    exact ContinuousAt.div (by fun_prop) (by fun_prop) h0
  · have h' : 1 / v ≤ N := by exact_mod_cast h2
    rw [div_le_iff₀ hv] at h'; linarith
  · have hl' : 1 / v = l := by exact_mod_cast hl
    subst hl'
    have h1 : Tendsto (fun N => N * m.T * (1 + v * N + (v * N) ^ 2 - (v * N) ^ 3)) (𝓝[<] (1 / v)) (𝓝 (1 / v * m.T * (1 + v * (1 / v) + (v * (1 / v)) ^ 2 - (v * (1 / v)) ^ 3))) := by
      refine Tendsto.mono_left ?_ nhdsWithin_le_nhds
      exact Continuous.tendsto (by fun_prop) _
    have h2 : Tendsto (fun N => ((1 - v * N) ^ 3)⁻¹) (𝓝[<] (1 / v)) atTop := by
      refine tendsto_inv_nhdsGT_zero.comp (tendsto_nhdsWithin_iff.2 ⟨?_, ?_⟩)
      · have : Tendsto (fun N => (1 - v * N) ^ 3) (𝓝 (1 / v)) (𝓝 ((1 - v * (1 / v)) ^ 3)) := Continuous.tendsto (by fun_prop) _
        have e : (1 - v * (1 / v)) ^ 3 = 0 := by field_simp; ring
        rw [e] at this
        exact this.mono_left nhdsWithin_le_nhds
      · filter_upwards [self_mem_nhdsWithin] with y hy
        have : y < 1 / v := hy
        rw [lt_div_iff₀ hv] at this
        exact pow_pos (by linarith : 0 < 1 - v * y) 3
    have e : 1 / v * m.T * (1 + v * (1 / v) + (v * (1 / v)) ^ 2 - (v * (1 / v)) ^ 3) = 2 * m.T / v := by field_simp; ring
    rw [e] at h1
    have := Tendsto.pos_mul_atTop (by positivity : 0 < 2 * m.T / v) h1 h2
    refine this.congr fun N => ?_
    unfold pressureCS; rw [div_eq_mul_inv]

/-- **C96 (hard spheres, search).** For hard spheres, the search finds the density that has the target pressure according to Carnahan and Starling, to a relative precision of 1.1e-12, provided it is above a packing fraction of 0.00501. -/
theorem C96_hard_spheres (m : Mix 1) (hs : m.ns 0 = 1) (R : ℝ) (hm : IsSingle m hs R) (hR : 0 < R) (hT : 0 < m.T) (Nb : ℝ) (hb : 0.005 < 4 * Real.pi * R ^ 3 / 3 * Nb) (p : ℝ) (fuel : Nat) (N : ℝ)
    (h : findDensity (computeP (allSpheres m) (fun _ _ => 1) (fun _ => Nb) m.T) p fuel Nb (Nb * (4 * Real.pi * R ^ 3 / 3)) = .ok N) (hN : 0.00501 < 4 * Real.pi * R ^ 3 / 3 * N) :
    ∃ x, 4 * Real.pi * R ^ 3 / 3 * x < 1 ∧ pressureCS m.T (4 * Real.pi * R ^ 3 / 3) x = p ∧ |N - x| ≤ 1.1e-12 * N := by
  have hpi := Real.pi_pos
  have hv : 0 < 4 * Real.pi * R ^ 3 / 3 := by positivity
  have hb0 : 0 < Nb := by by_contra h'; push Not at h'; nlinarith
  have hc := cs_curve m hs R hm hR hT Nb hb0
  have cs := fun N hN => C96_carnahan_starling m hs R hm hR hT.le Nb hb0 N hN
  generalize 4 * Real.pi * R ^ 3 / 3 = v at *
  have hst : 0.005 < v * startDensity Nb (Nb * v) ∧ v * startDensity Nb (Nb * v) < 1 := by
    unfold startDensity
    split
    · have : v * (Nb * (0.99 / (Nb * v))) = 0.99 := by field_simp
      rw [this]; norm_num
    · rename_i h'
      push Not at h'
      exact ⟨hb, by linarith⟩
  have hs0 := start_pos Nb (Nb * v) hb0
  have hnum : computeP (allSpheres m) (fun _ _ => 1) (fun _ => Nb) m.T (startDensity Nb (Nb * v)) ≠ none := by
    rw [(cs _ hs0).1 hst.1 hst.2]; simp
  obtain ⟨x, hx, hd⟩ := C96_search _ _ _ _ hc p fuel Nb (Nb * v) N hb0 hnum (by rw [div_lt_iff₀ hv]; linarith [hst.1]) h (by rw [div_lt_iff₀ hv]; norm_num at hN ⊢; linarith)
  have hN0 : 0 < N := by by_contra h'; push Not at h'; norm_num at hN; nlinarith
  have hx0 : 0 < x ∧ 0.005 < v * x := by
    rw [abs_le] at hd
    have hx1 : 0.999 * N ≤ x := by norm_num at hd ⊢; linarith
    refine ⟨by linarith, ?_⟩
    have := mul_le_mul_of_nonneg_left hx1 hv.le
    norm_num at hN this ⊢; linarith
  have hx1 : v * x < 1 := by
    by_contra h'
    push Not at h'
    rw [(cs x hx0.1).2 h'] at hx
    exact absurd hx (by simp)
  refine ⟨x, hx1, ?_, hd⟩
  rw [(cs x hx0.1).1 hx0.2 hx1] at hx
  exact Option.some.inj hx

/-- **C96 (hard spheres, compression).** If the target pressure is not below that at the first density that is tried, and this density is above a packing fraction of 0.00501, the search ends with a density as above. -/
theorem C96_hard_spheres_compressed (m : Mix 1) (hs : m.ns 0 = 1) (R : ℝ) (hm : IsSingle m hs R) (hR : 0 < R) (hT : 0 < m.T) (Nb : ℝ) (hb : 0.00501 < 4 * Real.pi * R ^ 3 / 3 * Nb) (hb1 : 4 * Real.pi * R ^ 3 / 3 * Nb ≤ 0.99)
    (p : ℝ) (hp : pressureCS m.T (4 * Real.pi * R ^ 3 / 3) Nb ≤ p) :
    ∃ K, ∀ fuel ≥ K, ∃ N, findDensity (computeP (allSpheres m) (fun _ _ => 1) (fun _ => Nb) m.T) p fuel Nb (Nb * (4 * Real.pi * R ^ 3 / 3)) = .ok N ∧
      ∃ x, 4 * Real.pi * R ^ 3 / 3 * x < 1 ∧ pressureCS m.T (4 * Real.pi * R ^ 3 / 3) x = p ∧ |N - x| ≤ 1.1e-12 * N := by
  have hpi := Real.pi_pos
  have hv : 0 < 4 * Real.pi * R ^ 3 / 3 := by positivity
  have hb0 : 0 < Nb := by by_contra h'; push Not at h'; norm_num at hb; nlinarith
  have cs := fun N hN => C96_carnahan_starling m hs R hm hR hT.le Nb hb0 N hN
  have fin := fun fuel N => C96_hard_spheres m hs R hm hR hT Nb (by norm_num at hb ⊢; linarith) p fuel N
  generalize 4 * Real.pi * R ^ 3 / 3 = v at *
  have hst : startDensity Nb (Nb * v) = Nb := by
    unfold startDensity
    rw [if_neg (by rw [mul_comm]; exact not_lt.2 hb1)]
  have hng : ¬ gtO (computeP (allSpheres m) (fun _ _ => 1) (fun _ => Nb) m.T (startDensity Nb (Nb * v))) p := by
    rw [hst, (cs Nb hb0).1 (by norm_num at hb ⊢; linarith) (by linarith)]
    rintro ⟨w, hw, hl⟩
    cases hw; linarith
  obtain ⟨K, hK⟩ := find_terminates _ p Nb (Nb * v) hb0 (fun h => absurd h hng) ⟨max 1 (1 / v), fun N hN => by
    have h1 : 1 ≤ N := le_trans (le_max_left _ _) hN
    have h2 : 1 / v ≤ N := le_trans (le_max_right _ _) hN
    rw [div_le_iff₀ hv] at h2
    rw [(cs N (by linarith)).2 (by linarith)]
    rintro ⟨w, hw, -⟩
    cases hw⟩
  refine ⟨K, fun fuel hf => ?_⟩
  obtain ⟨N, hN⟩ := hK fuel hf
  refine ⟨N, hN, fin fuel N hN ?_⟩
  obtain ⟨a, b, r1, r2, r3, r4, r5, r6, r7, r8⟩ := find_spec _ p fuel Nb _ N hb0 hN
  have h8 := r8 hng
  rw [hst] at h8
  have : Nb ≤ N := by rcases r3 with e | e <;> linarith
  have := mul_le_mul_of_nonneg_left this hv.le
  linarith

example : ∃ K, ∀ fuel ≥ K, ∃ N, findDensity (computeP (allSpheres mEx0) (fun _ _ => 1) (fun _ => 0.1) 1) 5 fuel 0.1 (0.1 * (4 * Real.pi * 1 ^ 3 / 3)) = .ok N ∧
    ∃ x, 4 * Real.pi * 1 ^ 3 / 3 * x < 1 ∧ pressureCS 1 (4 * Real.pi * 1 ^ 3 / 3) x = 5 ∧ |N - x| ≤ 1.1e-12 * N := by
  have p1 := Real.pi_gt_three
  have p2 := Real.pi_lt_d2
  refine C96_hard_spheres_compressed mEx0 rfl 1 ⟨by simp [mEx0, sEx, fmtWeight0], rfl⟩ one_pos (by norm_num [mEx0]) 0.1 (by norm_num; linarith) (by norm_num; linarith) 5 ?_
  show pressureCS 1 _ _ ≤ 5
  unfold pressureCS
  generalize hη : 4 * Real.pi * 1 ^ 3 / 3 * 0.1 = η
  have h1 : η ≤ 0.42 := by rw [← hη]; norm_num at p2 ⊢; linarith
  have h0 : 0 ≤ η := by rw [← hη]; positivity
  have h3 : 0.19 ≤ (1 - η) ^ 3 := by
    have := pow_le_pow_left₀ (by norm_num : (0 : ℝ) ≤ 0.58) (by linarith : (0.58 : ℝ) ≤ 1 - η) 3
    norm_num at this ⊢; linarith
  rw [div_le_iff₀ (by linarith)]
  have : 0 ≤ η ^ 3 := by positivity
  nlinarith

/-- The pressure of an ideal gas is a curve without limit. -/
theorem ideal_curve (T Nb : ℝ) : Curve (computeP (C := 1) (ns := fun _ => 1) (uSum []) (fun _ _ => 1) (fun _ => Nb) T) (fun N => N * T) 0 ⊤ :=
  ⟨fun N _ _ => ideal_pressure T Nb N, fun N _ _ => by fun_prop, fun N _ h => absurd h (by simp), fun l h => absurd h (by simp)⟩

/-- For an ideal gas, the search ends at the density p/T. -/
example : ∃ K, ∀ fuel ≥ K, ∃ N, findDensity (computeP (C := 1) (ns := fun _ => 1) (uSum []) (fun _ _ => 1) (fun _ => 1) 2) 8 fuel 1 0.1 = .ok N ∧ |N - 4| ≤ 1.1e-12 * N := by
  have hi := fun N => ideal_pressure 2 1 N
  obtain ⟨K, hK⟩ := C96_terminates (computeP (C := 1) (ns := fun _ => 1) (uSum []) (fun _ _ => 1) (fun _ => 1) 2) 8 1 0.1 one_pos ⟨4, by norm_num, fun N _ h v hv => by rw [hi] at hv; cases hv; linarith⟩
    ⟨4, fun N h v hv => by rw [hi] at hv; cases hv; linarith⟩
  refine ⟨K, fun fuel hf => ?_⟩
  obtain ⟨N, hN⟩ := hK fuel hf
  have hs : startDensity 1 0.1 = 1 := by unfold startDensity; rw [if_neg (by norm_num)]
  obtain ⟨a, b, r1, r2, r3, r4, -⟩ := C96_crossing _ 8 fuel 1 0.1 N one_pos hN
  obtain ⟨x, h1, h2⟩ := C96_search _ _ _ _ (ideal_curve 2 1) 8 fuel 1 0.1 N one_pos (by rw [hi]; simp) (by rw [hs]; norm_num) hN (by rcases r4 with e | e <;> linarith)
  refine ⟨N, hN, ?_⟩
  rw [hi] at h1
  have : x = 4 := by have := Option.some.inj h1; linarith
  rwa [this] at h2

example : ∃ P, computeP (allSpheres mEx0) (fun _ _ => 1) (fun _ => 1) 1 0.1 = some P ∧ HasDerivO (helmholtz (allSpheres mEx0) (fun _ _ => 1) 1 fun _ => 7 * (0.1 / 1 * 1)) (-P) 7 := by
  have p1 := Real.pi_gt_three
  have p2 := Real.pi_lt_d2
  have h := C96_pressure (allSpheres mEx0) (fun _ _ => 1) 1 (fun _ => 1) one_pos (fun _ => one_pos) 0.1 (by norm_num) ?_ 7 (by norm_num)
  · simpa [portions] using h
  · have e : (fun (c : Fin 1) (i : Fin (mEx0.ns c)) => portions (fun _ => 1) 0.1 c * ((1 : Nat) : ℝ)) = single mEx0 0.1 := by
      funext c i; simp [portions, single]
    rw [e]
    exact uspheres_grad mEx0 (fun _ s => s) _ (single_regular mEx0 rfl 1 0.1 ⟨by simp [mEx0, sEx, fmtWeight0], rfl⟩ (by norm_num) one_pos (by norm_num; linarith) (by norm_num; linarith))

/-! ### The bulk state -/

/-- **C96 (bulk state).** If bulk densities and chemical potentials are as found by `initialize`, the mixture without external potentials and charges is stationary at zero independent fields: the gradient vanishes,
and the grand free energy is the volume times the difference of target and actual pressure. For mixtures whose components are neutral together, made of ideal gases and contributions that agree with the uniform fluid (see below). -/
theorem C96_bulk (g : Grid) (hg : GridOK g) {C : Nat} (hC : 0 < C) (R : Recipe C) (u : UTerm fun c => R.ns c + 1) (Nbulk Vhs : Fin C → ℝ) (hb : ∀ c, 0 < Nbulk c) (p : ℝ) (fuel : Nat) (Nmol mu : Fin C → ℝ)
    (hi : initBulk u R.mult Nbulk fuel R.T p Vhs = .ok (some (Nmol, mu)))
    (hm : ∀ c, 0 < R.mult c 0) (hQ : ∑ c, R.Q c * Nbulk c = 0) (hq : R.Qtol ≠ 0)
    (hgas : ∀ c, GasBulk g R.T (R.mult c) (mu c) (Nmol c) (R.gas c (mu c) (Nmol c))) (ht : TermBulk g R.mult Nmol (termSum R.terms) u) :
    ∃ Ntot P G, (∀ c, Nmol c = Ntot / (∑ c, Nbulk c) * Nbulk c) ∧ findDensity (computeP u R.mult Nbulk R.T) p fuel (∑ c, Nbulk c) (∑ c, Nbulk c * Vhs c) = .ok Ntot ∧ computeP u R.mult Nbulk R.T Ntot = some P ∧
      (R.mix p Nmol mu).evaluate g (fun _ _ _ => 0) = .ok (some (g.detR * (p - P)), G) ∧ ∀ c k, ∀ j < nr g.S, G c k j = 0 := by
  have : Nonempty (Fin C) := ⟨⟨0, hC⟩⟩
  have hs : 0 < ∑ c, Nbulk c := Finset.sum_pos (fun c _ => hb c) Finset.univ_nonempty
  unfold initBulk at hi
  obtain ⟨x, hx⟩ : ∃ x, findDensity (computeP u R.mult Nbulk R.T) p fuel (∑ c, Nbulk c) (∑ c, Nbulk c * Vhs c) = x := ⟨_, rfl⟩
  rw [hx] at hi
  cases x with
  | error e => cases hi
  | ok Ntot =>
    have hi' : (uniformEx u R.mult (portions Nbulk Ntot)).map (fun r => (portions Nbulk Ntot, r.2)) = some (Nmol, mu) := Except.ok.inj hi
    obtain ⟨⟨a, mu'⟩, hu, he⟩ := Option.map_eq_some_iff.1 hi'
    simp only [Prod.mk.injEq] at he
    obtain ⟨hN, rfl⟩ := he
    subst hN
    have hNt : 0 < Ntot := by
      obtain ⟨a, b, r1, r2, r3, -⟩ := find_spec _ p fuel _ _ Ntot hs hx
      rcases r3 with e | e <;> linarith
    have hQ' : ∑ c, R.Q c * portions Nbulk Ntot c = 0 := by
      have : ∑ c, R.Q c * portions Nbulk Ntot c = Ntot / (∑ c, Nbulk c) * ∑ c, R.Q c * Nbulk c := by
        rw [Finset.mul_sum]; exact Finset.sum_congr rfl fun c _ => by unfold portions; ring
      rw [this, hQ, mul_zero]
    obtain ⟨G, h1, h2⟩ := bulk_eval g R p (portions Nbulk Ntot) mu' hg.1 hg.2 (fun c => mul_pos (div_pos hNt hs) (hb c)) hm hQ' hq u a hu hgas ht
    refine ⟨Ntot, Ntot * R.T - a + ∑ c, portions Nbulk Ntot c * mu' c, G, fun c => rfl, hx, by unfold computeP; rw [hu]; rfl, ?_, h2⟩
    refine h1.trans ?_
    congr 4
    have : ∑ c, portions Nbulk Ntot c * (R.T + mu' c) = Ntot * R.T + ∑ c, portions Nbulk Ntot c * mu' c := by
      simp only [mul_add, Finset.sum_add_distrib]
      rw [← Finset.sum_mul, portions_sum Nbulk hs Ntot]
    rw [this]; ring

/-- **C96 (ideal gases in bulk).** Monoatomic gases, and molecules in all three representations of orientations, are uniform gases at zero independent fields: if the quadrature weights add up to 1 and no dipole moment remains on average. -/
theorem C96_gas (g : Grid) (hg : GridOK g) :
    (∀ T mu Nb : ℝ, GasBulk g T (fun _ => 1) mu Nb (gasMono g T mu Nb fun _ => 0)) ∧
    ∀ (n nO : Nat) (o : Orient n nO) (r : Rep) (mult : Fin (n + 1) → Nat), 0 < mult 0 → o.mult0 = mult 0 → (∀ w i, (o.disp w i).length = mult i) → ∑ w, o.weight w = 1 →
      (∀ k, ∑ w, o.weight w * o.dip w k = 0) → (∀ i j, o.V i j = 0) → GasBulk g o.T mult o.mu o.Nbulk (o.gas g r) :=
  ⟨fun T mu Nb => mono_bulk g hg.2 T mu Nb, fun _ _ o r mult h0 hm hl hw hd hv => orient_bulk g o r hg.1 hg.2 mult h0 hm hl hw hd hv⟩

/-- **C96 (contributions in bulk).** Charges, hard spheres with bonds, equations of state and mixing functionals agree with the uniform fluid. -/
theorem C96_terms (g : Grid) (hg : GridOK g) (h2 : EvenGrid g) {C : Nat} {ns : Fin C → Nat} (mult : (c : Fin C) → Fin (ns c) → Nat) (Nmol : Fin C → ℝ) (hN : ∀ c, 0 < Nmol c) (hm : ∀ c s, 0 < mult c s) :
    (∀ l : List (Term ns × UTerm ns), (∀ t ∈ l, TermBulk g mult Nmol t.1 t.2) → TermBulk g mult Nmol (termSum (l.map Prod.fst)) (uSum (l.map Prod.snd))) ∧
    (∀ q mf useMF, TermBulk g mult Nmol (termCoulomb g q mf useMF (fun _ => 0) fun _ => 0) uCoulomb) ∧
    (∀ (m : Mix C) (pick : (c : Fin C) → Fin (m.ns c) → Fin (ns c)), (∀ c s, 0 < (m.sphere c s).w0 0) → TermBulk g mult Nmol (termSpheres g m pick) (uSpheres m pick)) ∧
    (∀ (c : Fin C) (n : Nat) (sites : Fin (n + 1) → Site) (pick : Fin (n + 1) → Fin (ns c)) (w : Nat → ℝ) (e : ℝ → Option (ℝ × ℝ)), alphaTot sites ≠ 0 → (∀ s, (sites s).mult = mult c (pick s)) → w 0 = 1 →
      TermBulk g mult Nmol (termEos g c sites pick w e) (uEos c (pick 0) (sites 0).mult e)) ∧
    ∀ (c1 : Fin C) (s1 : Fin (ns c1)) (c2 : Fin C) (s2 : Fin (ns c2)) (a : ℝ) (w : Nat → ℝ), TermBulk g mult Nmol (termPair g c1 s1 c2 s2 a w) (uPair c1 s1 c2 s2 a w) :=
  ⟨fun l h => sum_bulk g mult Nmol l h, fun q mf useMF => coulomb_bulk g mult Nmol hg.1 h2 q mf useMF, fun m pick hw => spheres_bulk g m mult Nmol hg.1 hg.2 pick hN hm hw,
    fun c n sites pick w e hα hmult hw => eos_bulk g mult Nmol hg.1 hg.2 c sites pick hα (by rw [hmult 0]; exact (hm c (pick 0)).ne') hmult w hw e,
    fun c1 s1 c2 s2 a w => pair_bulk g mult Nmol hg.1 h2 hg.2 c1 s1 c2 s2 a w⟩

/-- The charges of a salt. -/
def saltC : Term fun _ : Fin 2 => 0 + 1 := termCoulomb gEx (fun c _ _ => (![1, -1] : Fin 2 → ℝ) c) (fun _ _ => 1) true (fun _ => 0) fun _ => 0

/-- A salt. -/
def saltR : Recipe 2 where
  ns := fun _ => 0
  gas := fun _ mu Nb => gasMono gEx 1 mu Nb fun _ => 0
  mult := fun _ _ => 1
  Q := ![1, -1]
  T := 1
  Qtol := 1
  terms := [saltC]

theorem saltC_bulk (N : Fin 2 → ℝ) (hN : ∀ c, 0 < N c) : TermBulk gEx (fun _ _ => 1) N saltC uCoulomb := by
  have h := (C96_terms gEx gEx_ok gEx_even (ns := fun _ : Fin 2 => 0 + 1) (fun _ _ => 1) N hN fun _ _ => one_pos).2.1 (fun c _ _ => (![1, -1] : Fin 2 → ℝ) c) (fun _ _ => 1) true
  unfold saltC
  exact h

theorem salt_term (N : Fin 2 → ℝ) (hN : ∀ c, 0 < N c) : TermBulk gEx saltR.mult N (termSum saltR.terms) (uSum [uCoulomb]) := by
  have h := (C96_terms gEx gEx_ok gEx_even (ns := fun _ : Fin 2 => 0 + 1) (fun _ _ => 1) N hN fun _ _ => one_pos).1 [(saltC, uCoulomb)] fun t ht => by
    rw [List.mem_singleton] at ht
    rw [ht]
    exact saltC_bulk N hN
  exact h

theorem salt_gas (c : Fin 2) (mu Nb : ℝ) : GasBulk gEx saltR.T (saltR.mult c) mu Nb (saltR.gas c mu Nb) := (C96_gas gEx gEx_ok).1 1 _ _

/-- The salt at pressure 3. -/
example : ∃ K, ∀ fuel ≥ K, ∃ Nmol mu P G, initBulk (uSum [uCoulomb]) saltR.mult (fun _ => 1) fuel saltR.T 3 (fun _ => 0) = .ok (some (Nmol, mu)) ∧
    (saltR.mix 3 Nmol mu).evaluate gEx (fun _ _ _ => 0) = .ok (some (gEx.detR * (3 - P)), G) ∧ ∀ c k, ∀ j < nr gEx.S, G c k j = 0 := by
  have hu : ∀ N, uniformEx (C := 2) (uSum [uCoulomb]) saltR.mult N = some (0, fun _ => 0) := fun N => by simp [uniformEx, uSum, addO, uCoulomb]
  have hi : ∀ N, computeP (C := 2) (uSum [uCoulomb]) saltR.mult (fun _ => 1) saltR.T N = some N := fun N => by
    unfold computeP; rw [hu]; simp [saltR]
  obtain ⟨K, hK⟩ := C96_terminates (computeP (C := 2) (uSum [uCoulomb]) saltR.mult (fun _ => 1) saltR.T) 3 (∑ _c : Fin 2, (1 : ℝ)) (∑ _c : Fin 2, (1 : ℝ) * 0) (by simp) ⟨3, by norm_num, fun N _ h v hv => by rw [hi] at hv; cases hv; exact h.le⟩
    ⟨3, fun N h v hv => by rw [hi] at hv; cases hv; exact h⟩
  refine ⟨K, fun fuel hf => ?_⟩
  obtain ⟨N, hN⟩ := hK fuel hf
  have hN0 : 0 < N := by
    obtain ⟨a, b, r1, r2, r3, r4, -⟩ := C96_crossing _ 3 fuel _ _ N (by simp) hN
    rcases r4 with e | e <;> linarith
  have hin : initBulk (uSum [uCoulomb]) saltR.mult (fun _ => 1) fuel saltR.T 3 (fun _ => 0) = .ok (some (portions (fun _ => 1) N, fun _ => 0)) := by
    unfold initBulk
    rw [hN]
    show Except.ok (Option.map _ (uniformEx (C := 2) (uSum [uCoulomb]) saltR.mult _)) = _
    rw [hu]; rfl
  have hp : ∀ c, 0 < portions (C := 2) (fun _ => 1) N c := fun c => by simp [portions, hN0]
  obtain ⟨Nt, P, G, -, -, -, h1, h2⟩ := C96_bulk gEx gEx_ok (by norm_num) saltR (uSum [uCoulomb]) (fun _ => 1) (fun _ => 0) (fun _ => one_pos) 3 fuel _ _ hin (fun _ => one_pos) (by simp [saltR]) (by simp [saltR])
    (fun c => salt_gas c _ _) (salt_term _ hp)
  exact ⟨_, _, P, G, hin, h1, h2⟩

end
end Jdftx.Fluid
