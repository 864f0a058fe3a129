import Verif.Lemmas.LDA

/-!
# C72: local density functionals
-/
namespace Jdftx.LDA
noncomputable section
open Filter Topology

/-- Densities at which the formulas switch and the energy density jumps: the cutoff for all functionals of `rs`, and for
Perdew-Zunger correlation the density with `rs = 1`. -/
def Smooth (v : Variant) (nTot : ℝ) : Prop :=
  match v with
  | .slater => True
  | .tf => True
  | .corr c => nTot ≠ nCutoff ∧ (c = .pz → nTot < nCutoff ∨ rsOf nTot ≠ 1)

theorem rsOf_pos (n : ℝ) (h : 0 < n) : 0 < rsOf n := Real.rpow_pos_of_pos (by positivity) _

theorem rsOf_deriv (n : ℝ) (h : 0 < n) : HasDerivAt rsOf (-(rsOf n) / (3 * n)) n := by
  have hk : 0 < 4 * Real.pi / 3 * n := by positivity
  have := ((hasDerivAt_id n).const_mul (4 * Real.pi / 3)).rpow_const (p := -1 / 3) (Or.inl hk.ne')
  refine this.congr_deriv ?_
  simp only [id, rsOf]
  rw [Real.rpow_sub_one hk.ne']
  field_simp

theorem eval_ok (c : Corr) (rs zeta : ℝ) (h : 0 < rs) (hpz : c = .pz → rs ≠ 1) (h1 : -1 < zeta) (h2 : zeta < 1) :
    Consistent2 (eval c) rs zeta := by
  cases c with
  | pz => exact interp2_ok _ _ rs zeta (pz_ok true rs h (hpz rfl)) (pz_ok false rs h (hpz rfl)) h1 h2
  | pw => exact interp3_ok _ _ _ _ rs zeta (pw_ok 0 false rs h) (pw_ok 1 false rs h) (pw_ok 2 false rs h) h1 h2
  | pwPrec => exact interp3_ok _ _ _ _ rs zeta (pw_ok 0 true rs h) (pw_ok 1 true rs h) (pw_ok 2 true rs h) h1 h2
  | vwn => exact interp3_ok _ _ _ _ rs zeta (vwn_ok 0 rs h) (vwn_ok 1 rs h) (vwn_ok 2 rs h) h1 h2
  | teter => exact teter_ok rs zeta h h1 h2

theorem eval_zero (c : Corr) (rs : ℝ) : (eval c rs 0).e_zeta = 0 := by
  cases c <;> simp [eval, spinInterpolate2, spinInterpolate3, teter, spinF_zero.2]

/-- Without spin: what is added to the potential is the derivative of what is added to the energy density. -/
theorem C72_potential (v : Variant) (scaleFac n : ℝ) (hn : 0 < n) (hs : Smooth v n) :
    HasDerivAt (fun n => (compute1 v scaleFac n).E) (compute1 v scaleFac n).E_n n := by
  cases v with
  | slater =>
    simp only [compute1, slaterTurn, mul_one]
    have h := (pow43_deriv n hn).const_mul (scaleFac * (-0.75 / 1 * (3 / Real.pi) ^ (1 / 3 : ℝ)))
    refine HasDerivAt.congr_of_eventuallyEq (h.congr_deriv ?_) (Eventually.of_forall fun x => ?_) <;> ring
  | tf =>
    simp only [compute1, tfTurn, mul_one]
    have h0 := ((hasDerivAt_id n).rpow_const (p := 2 / 3) (Or.inl hn.ne')).mul (hasDerivAt_id n)
    have h := h0.const_mul (scaleFac * (0.3 / 1 * (3 * Real.pi * Real.pi) ^ (2 / 3 : ℝ)))
    refine HasDerivAt.congr_of_eventuallyEq (h.congr_deriv ?_) (Eventually.of_forall fun x => ?_)
    · have : n ^ (2 / 3 : ℝ) = n * n ^ ((2 / 3 : ℝ) - 1) := by
        rw [Real.rpow_sub_one hn.ne']; field_simp
      simp only [id]
      rw [this]; ring
    · simp only [Pi.mul_apply, id]; ring
  | corr c =>
    obtain ⟨hcut, hpz⟩ := hs
    rcases lt_or_gt_of_ne hcut with hlt | hgt
    · have hev : (fun n => (compute1 (.corr c) scaleFac n).E) =ᶠ[𝓝 n] fun _ => 0 := by
        filter_upwards [gt_mem_nhds hlt] with x hx
        simp only [compute1, corr1, if_pos hx]
      refine HasDerivAt.congr_of_eventuallyEq ?_ hev
      simp only [compute1, corr1, if_pos hlt]
      exact hasDerivAt_const _ _
    · have hev : (fun n => (compute1 (.corr c) scaleFac n).E) =ᶠ[𝓝 n] fun n => scaleFac * (n * (eval c (rsOf n) 0).e) := by
        filter_upwards [lt_mem_nhds hgt] with x hx
        simp only [compute1, corr1, if_neg (not_lt.2 (le_of_lt hx))]
      refine HasDerivAt.congr_of_eventuallyEq ?_ hev
      have hr := rsOf_deriv n hn
      have hpz' : c = .pz → rsOf n ≠ 1 := fun h => (hpz h).resolve_left (not_lt.2 hgt.le)
      -- along the path n + t
      have hline : HasDerivAt (fun t : ℝ => n + t) 1 0 := (hasDerivAt_id (0 : ℝ)).const_add n
      have hr0 : HasDerivAt (fun t => rsOf (n + t)) (-(rsOf n) / (3 * n)) 0 := by
        have := HasDerivAt.comp (0 : ℝ) (show HasDerivAt rsOf (-(rsOf n) / (3 * n)) (n + 0) by rw [add_zero]; exact hr) hline
        rwa [mul_one] at this
      have he := eval_ok c (rsOf n) 0 (rsOf_pos n hn) hpz' (by norm_num) (by norm_num) (fun t => rsOf (n + t)) (fun _ => 0) _ 0
        (by rw [add_zero]) rfl hr0 (hasDerivAt_const _ _)
      have hE : HasDerivAt (fun x => (eval c (rsOf x) 0).e) ((eval c (rsOf n) 0).e_rs * (-(rsOf n) / (3 * n))) n := by
        have hD : (eval c (rsOf n) 0).e_rs * (-rsOf n / (3 * n)) + (eval c (rsOf n) 0).e_zeta * 0
            = (eval c (rsOf n) 0).e_rs * (-rsOf n / (3 * n)) := by ring
        have hsub : HasDerivAt (fun x : ℝ => x - n) 1 n := (hasDerivAt_id n).sub_const n
        generalize (eval c (rsOf n) 0).e_rs * (-rsOf n / (3 * n)) + (eval c (rsOf n) 0).e_zeta * 0 = D at he hD
        have he' := HasDerivAt.comp (h := fun x => x - n) (h₂ := fun t => (eval c (rsOf (n + t)) 0).e) n
          (by rw [sub_self]; exact he) hsub
        have hf : ((fun t => (eval c (rsOf (n + t)) 0).e) ∘ fun x => x - n) = fun x => (eval c (rsOf x) 0).e := by
          funext x; simp only [Function.comp]; rw [add_sub_cancel]
        rw [hf] at he'
        exact he'.congr_deriv (by rw [← hD]; ring)
      refine (((hasDerivAt_id n).mul hE).const_mul scaleFac).congr_deriv ?_
      simp only [compute1, corr1, if_neg (not_lt.2 hgt.le), eval_zero, id]
      ring

/-- The derivative of the energy density along a curve of up and down densities. -/
theorem spin_curve (v : Variant) (scaleFac n0 n1 u0 u1 : ℝ) (a b : ℝ → ℝ) (ha0 : a 0 = n0) (hb0 : b 0 = n1)
    (hl0 : HasDerivAt a u0 0) (hl1 : HasDerivAt b u1 0) (h0 : 0 < n0) (h1 : 0 < n1) (hs : Smooth v (n0 + n1)) :
    HasDerivAt (fun t => (compute2 v scaleFac (a t) (b t)).E)
      ((compute2 v scaleFac n0 n1).E_up * u0 + (compute2 v scaleFac n0 n1).E_dn * u1) 0 := by
  cases v with
  | slater =>
    simp only [compute2, slaterTurn]
    have key : ∀ (c : ℝ → ℝ) (n u : ℝ), c 0 = n → 0 < n → HasDerivAt c u 0 →
        HasDerivAt (fun t => scaleFac * (-0.75 / 2 * (3 / Real.pi) ^ (1 / 3 : ℝ) * (c t * 2) ^ (1 / 3 : ℝ) * (c t * 2)))
          (scaleFac * (2 * (-0.75 / 2 * (3 / Real.pi) ^ (1 / 3 : ℝ)) * 4 / 3 * (n * 2) ^ (1 / 3 : ℝ)) * u) 0 := by
      intro c n u hc0 hn hl
      have hp := HasDerivAt.comp (0 : ℝ) (show HasDerivAt _ _ (c 0 * 2) from pow43_deriv (c 0 * 2) (by rw [hc0]; linarith)) (hl.mul_const 2)
      have h := hp.const_mul (scaleFac * (-0.75 / 2 * (3 / Real.pi) ^ (1 / 3 : ℝ)))
      refine HasDerivAt.congr_of_eventuallyEq (h.congr_deriv ?_) (Eventually.of_forall fun x => ?_)
      · rw [hc0]; ring
      · simp only [Function.comp]; ring
    exact (key a n0 u0 ha0 h0 hl0).add (key b n1 u1 hb0 h1 hl1)
  | tf =>
    simp only [compute2, tfTurn]
    have key : ∀ (c : ℝ → ℝ) (n u : ℝ), c 0 = n → 0 < n → HasDerivAt c u 0 →
        HasDerivAt (fun t => scaleFac * (0.3 / 2 * (3 * Real.pi * Real.pi) ^ (2 / 3 : ℝ) * (c t * 2) ^ (2 / 3 : ℝ) * (c t * 2)))
          (scaleFac * (2 * (0.3 / 2 * (3 * Real.pi * Real.pi) ^ (2 / 3 : ℝ)) * 5 / 3 * (n * 2) ^ (2 / 3 : ℝ)) * u) 0 := by
      intro c n u hc0 hn hl
      have hn2 : c 0 * 2 ≠ 0 := by rw [hc0]; positivity
      have hp := ((hl.mul_const 2).rpow_const (p := 2 / 3) (Or.inl hn2)).mul (hl.mul_const 2)
      have h := hp.const_mul (scaleFac * (0.3 / 2 * (3 * Real.pi * Real.pi) ^ (2 / 3 : ℝ)))
      refine HasDerivAt.congr_of_eventuallyEq (h.congr_deriv ?_) (Eventually.of_forall fun x => ?_)
      · have : (n * 2) ^ (2 / 3 : ℝ) = (n * 2) * (n * 2) ^ ((2 / 3 : ℝ) - 1) := by
          rw [Real.rpow_sub_one (by positivity)]; field_simp
        rw [hc0, this]; ring
      · simp only [Pi.mul_apply]; ring
    exact (key a n0 u0 ha0 h0 hl0).add (key b n1 u1 hb0 h1 hl1)
  | corr c =>
    obtain ⟨hcut, hpz⟩ := hs
    have hT : HasDerivAt (fun t : ℝ => a t + b t) (u0 + u1) 0 := hl0.add hl1
    have hT0 : a 0 + b 0 = n0 + n1 := by rw [ha0, hb0]
    rcases lt_or_gt_of_ne hcut with hlt | hgt
    · have hev : (fun t => (compute2 (.corr c) scaleFac (a t) (b t)).E) =ᶠ[𝓝 0] fun _ => 0 := by
        filter_upwards [hT.continuousAt.eventually (gt_mem_nhds (show a 0 + b 0 < nCutoff by rw [hT0]; exact hlt))] with t ht
        simp only [compute2, corr2, if_pos ht]
      refine HasDerivAt.congr_of_eventuallyEq ?_ hev
      simp only [compute2, corr2, if_pos hlt]
      exact (hasDerivAt_const _ _).congr_deriv (by ring)
    · have hev : (fun t => (compute2 (.corr c) scaleFac (a t) (b t)).E) =ᶠ[𝓝 0]
          fun t => scaleFac * ((a t + b t) * (eval c (rsOf (a t + b t))
            ((a t - b t) / (a t + b t))).e) := by
        filter_upwards [hT.continuousAt.eventually (lt_mem_nhds (show nCutoff < a 0 + b 0 by rw [hT0]; exact hgt))] with t ht
        simp only [compute2, corr2, if_neg (not_lt.2 (le_of_lt ht))]
      refine HasDerivAt.congr_of_eventuallyEq ?_ hev
      have hn : 0 < n0 + n1 := by linarith
      have hr : HasDerivAt (fun t => rsOf (a t + b t)) (-(rsOf (n0 + n1)) / (3 * (n0 + n1)) * (u0 + u1)) 0 := by
        have hd := rsOf_deriv _ hn
        have e0 : (fun t : ℝ => a t + b t) 0 = n0 + n1 := hT0
        rw [← e0] at hd
        have := HasDerivAt.comp (0 : ℝ) hd hT
        rw [e0] at this
        exact this
      have hz := (hl0.sub hl1).div hT (show a 0 + b 0 ≠ 0 by rw [hT0]; exact hn.ne')
      have hpz' : c = .pz → rsOf (n0 + n1) ≠ 1 := fun h => (hpz h).resolve_left (not_lt.2 hgt.le)
      have he := eval_ok c (rsOf (n0 + n1)) ((n0 - n1) / (n0 + n1)) (rsOf_pos _ hn) hpz'
        (by rw [lt_div_iff₀ hn]; linarith) (by rw [div_lt_one hn]; linarith) _ _ _ _ (by simp only [hT0])
        (by simp only [Pi.div_apply, Pi.sub_apply, ha0, hb0]) hr hz
      refine ((hT.mul he).const_mul scaleFac).congr_deriv ?_
      simp only [compute2, corr2, if_neg (not_lt.2 hgt.le), Pi.sub_apply, Pi.div_apply, ha0, hb0]
      generalize (eval c (rsOf (n0 + n1)) ((n0 - n1) / (n0 + n1))).e = ee
      generalize (eval c (rsOf (n0 + n1)) ((n0 - n1) / (n0 + n1))).e_rs = er
      generalize (eval c (rsOf (n0 + n1)) ((n0 - n1) / (n0 + n1))).e_zeta = ez
      have := hn.ne'
      field_simp
      ring

/-- With spin: along every direction in the space of up and down densities, the energy density changes by the up potential
times the change of the up density plus the down potential times the change of the down density. -/
theorem C72_spin_potential (v : Variant) (scaleFac n0 n1 u0 u1 : ℝ) (h0 : 0 < n0) (h1 : 0 < n1) (hs : Smooth v (n0 + n1)) :
    HasDerivAt (fun t => (compute2 v scaleFac (n0 + t * u0) (n1 + t * u1)).E)
      ((compute2 v scaleFac n0 n1).E_up * u0 + (compute2 v scaleFac n0 n1).E_dn * u1) 0 := by
  have hl0 : HasDerivAt (fun t : ℝ => n0 + t * u0) u0 0 := by
    simpa using ((hasDerivAt_id (0 : ℝ)).mul_const u0).const_add n0
  have hl1 : HasDerivAt (fun t : ℝ => n1 + t * u1) u1 0 := by
    simpa using ((hasDerivAt_id (0 : ℝ)).mul_const u1).const_add n1
  exact spin_curve v scaleFac n0 n1 u0 u1 _ _ (by ring) (by ring) hl0 hl1 h0 h1 hs

/-- A spin-polarised calculation with equal spin densities agrees with the unpolarised one, for energy and potentials. -/
theorem C72_unpolarised (v : Variant) (scaleFac n : ℝ) :
    (compute2 v scaleFac (n / 2) (n / 2)).E = (compute1 v scaleFac n).E ∧
    (compute2 v scaleFac (n / 2) (n / 2)).E_up = (compute1 v scaleFac n).E_n ∧
    (compute2 v scaleFac (n / 2) (n / 2)).E_dn = (compute1 v scaleFac n).E_n := by
  have h2 : n / 2 * 2 = n := by ring
  cases v with
  | slater => simp only [compute2, compute1, slaterTurn, h2, mul_one]; refine ⟨?_, ?_, ?_⟩ <;> ring
  | tf => simp only [compute2, compute1, tfTurn, h2, mul_one]; refine ⟨?_, ?_, ?_⟩ <;> ring
  | corr c =>
    simp only [compute2, compute1, corr1, corr2, add_halves, sub_self, zero_div, eval_zero]
    split
    · simp
    · refine ⟨?_, ?_, ?_⟩ <;> ring

/-- Exchanging the spins exchanges the potentials and leaves the energy. -/
theorem C72_spin_flip (v : Variant) (scaleFac n0 n1 : ℝ) :
    (compute2 v scaleFac n1 n0).E = (compute2 v scaleFac n0 n1).E ∧
    (compute2 v scaleFac n1 n0).E_up = (compute2 v scaleFac n0 n1).E_dn ∧
    (compute2 v scaleFac n1 n0).E_dn = (compute2 v scaleFac n0 n1).E_up := by
  have hF : ∀ z, spinF (-z) = spinF z := by
    intro z; simp only [spinF, sub_neg_eq_add, ← sub_eq_add_neg]; ring
  have hF' : ∀ z, spinF_zeta (-z) = -spinF_zeta z := by
    intro z; simp only [spinF_zeta, sub_neg_eq_add, ← sub_eq_add_neg]; ring
  have hev : ∀ c rs z, (eval c rs (-z)).e = (eval c rs z).e ∧ (eval c rs (-z)).e_rs = (eval c rs z).e_rs ∧
      (eval c rs (-z)).e_zeta = -(eval c rs z).e_zeta := by
    intro c rs z
    cases c <;> simp only [eval, spinInterpolate2_eq, spinInterpolate3_eq, teter, hF, hF'] <;> refine ⟨?_, ?_, ?_⟩ <;> first | trivial | ring
  cases v with
  | slater => simp only [compute2]; exact ⟨add_comm _ _, trivial, trivial⟩
  | tf => simp only [compute2]; exact ⟨add_comm _ _, trivial, trivial⟩
  | corr c =>
    have e : (n1 - n0) / (n0 + n1) = -((n0 - n1) / (n0 + n1)) := by ring
    simp only [compute2, corr2, add_comm n1 n0, e, hev]
    split
    · simp
    · refine ⟨?_, ?_, ?_⟩ <;> ring

/-- At full polarisation the correlation is the ferromagnetic one. -/
theorem C72_ferromagnetic (rs : ℝ) :
    (eval .pz rs 1).e = (pz false rs).e ∧ (eval .pw rs 1).e = (pw 1 false rs).e ∧
    (eval .pwPrec rs 1).e = (pw 1 true rs).e ∧ (eval .vwn rs 1).e = (vwn 1 rs).e := by
  have h : spinF 1 = 1 := by
    have e : (2 : ℝ) ^ (4 / 3 : ℝ) = 2 * 2 ^ (1 / 3 : ℝ) := by
      rw [show (4 / 3 : ℝ) = 1 + 1 / 3 by norm_num, Real.rpow_add (by norm_num), Real.rpow_one]
    have hs := scale_pos
    simp only [spinF]
    rw [e] at *
    norm_num at hs ⊢
    have : (2 * 2 ^ (1 / 3 : ℝ) - 2 : ℝ) ≠ 0 := by linarith
    field_simp
  refine ⟨?_, ?_, ?_, ?_⟩ <;> simp only [eval, spinInterpolate2_eq, spinInterpolate3_eq, h] <;> ring

theorem rsOf_radius (n : ℝ) (h : 0 < n) : IsRadius (rsOf n) n := by
  refine ⟨rsOf_pos n h, ?_⟩
  have hk : 0 < 4 * Real.pi / 3 * n := by positivity
  have : rsOf n ^ 3 = (4 * Real.pi / 3 * n)⁻¹ := by
    simp only [rsOf]
    rw [← Real.rpow_natCast, ← Real.rpow_mul hk.le, ← Real.rpow_neg_one]; norm_num
  rw [this]
  have := hk.ne'
  field_simp

theorem radius_unique (rs n : ℝ) (h : 0 < n) (hr : IsRadius rs n) : rsOf n = rs := by
  have h2 := rsOf_radius n h
  have hpi := Real.pi_pos
  have e : rsOf n ^ 3 = rs ^ 3 := by
    have h3 := h2.2.trans hr.2.symm
    have hc : n * (4 / 3 * Real.pi) ≠ 0 := by positivity
    refine mul_left_cancel₀ hc ?_
    linarith
  exact (pow_left_inj₀ h2.1.le hr.1.le (by norm_num)).1 e

theorem pow43 (y : ℝ) (h : 0 ≤ y) : y ^ (4 / 3 : ℝ) = y * y ^ (1 / 3 : ℝ) := by
  rcases h.eq_or_lt with h | h
  · subst h; rw [Real.zero_rpow (by norm_num), zero_mul]
  · rw [show (4 / 3 : ℝ) = 1 + 1 / 3 by norm_num, Real.rpow_add h, Real.rpow_one]

theorem pow53 (y : ℝ) (h : 0 ≤ y) : y ^ (5 / 3 : ℝ) = y * y ^ (2 / 3 : ℝ) := by
  rcases h.eq_or_lt with h | h
  · subst h; rw [Real.zero_rpow (by norm_num), zero_mul]
  · rw [show (5 / 3 : ℝ) = 1 + 2 / 3 by norm_num, Real.rpow_add h, Real.rpow_one]

theorem spinF_eq (zeta : ℝ) (h1 : -1 ≤ zeta) (h2 : zeta ≤ 1) : spinF zeta = barthHedin zeta := by
  simp only [spinF, barthHedin]
  rw [pow43 (1 + zeta) (by linarith), pow43 (1 - zeta) (by linarith)]
  ring

theorem pz_eq (para : Bool) (rs : ℝ) : (pz para rs).e = perdewZunger (!para) rs := by
  cases para <;> simp only [pz, perdewZunger, Bool.not_true, Bool.not_false] <;> split <;> simp <;> ring

theorem pw_eq (A a1 b1 b2 b3 b4 rs : ℝ) (h : 0 < rs) :
    -(2 * A) * (1 + a1 * rs) * Real.log (1 + 1 / ((2 * A) * Real.sqrt rs * (b1 + Real.sqrt rs * (b2 + Real.sqrt rs * (b3 + Real.sqrt rs * b4)))))
      = perdewWang A a1 b1 b2 b3 b4 rs := by
  have hs : Real.sqrt rs * Real.sqrt rs = rs := Real.mul_self_sqrt h.le
  simp only [perdewWang]
  congr 4
  calc _ = 2 * A * (b1 * Real.sqrt rs + b2 * (Real.sqrt rs * Real.sqrt rs) + b3 * ((Real.sqrt rs * Real.sqrt rs) * Real.sqrt rs)
        + b4 * (Real.sqrt rs * Real.sqrt rs) ^ 2) := by ring
    _ = _ := by rw [hs]

theorem vwn_eq (spinID : Nat) (rs : ℝ) : (vwn spinID rs).e = voskoWilkNusair
    (pick spinID 0.0310907 0.01554535 (1 / (6 * Real.pi ^ 2))) (pick spinID (-0.10498) (-0.325) (-0.0047584))
    (pick spinID 3.72744 7.06042 1.13107) (pick spinID 12.9352 18.0578 13.0045) rs := by
  simp only [vwn, voskoWilkNusair]
  rw [show (-0.32500 : ℝ) = -0.325 by norm_num, show 6 * Real.pi * Real.pi = 6 * Real.pi ^ 2 by ring]
  generalize pick spinID 0.0310907 0.01554535 (1 / (6 * Real.pi ^ 2)) = A
  generalize pick spinID (-0.10498) (-0.325) (-0.0047584) = x0
  generalize pick spinID 3.72744 7.06042 1.13107 = b
  generalize pick spinID 12.9352 18.0578 13.0045 = c
  generalize Real.sqrt rs = x
  rw [show c + x * (b + x) = x ^ 2 + b * x + c by ring, show c + x0 * (b + x0) = x0 ^ 2 + b * x0 + c by ring,
    show 4 * c - b * b = 4 * c - b ^ 2 by ring, show x * x = x ^ 2 by ring,
    show (x - x0) * (x - x0) = (x - x0) ^ 2 by ring]
  ring

theorem eval_published (c : Corr) (rs zeta : ℝ) (h : 0 < rs) (h1 : -1 ≤ zeta) (h2 : zeta ≤ 1) :
    (eval c rs zeta).e = published c rs zeta := by
  cases c with
  | pz => simp only [eval, published, spinInterpolate2_eq, spinF_eq zeta h1 h2, pz_eq, Bool.not_true, Bool.not_false]
  | pw =>
    simp only [eval, published, spinInterpolate3_eq, spinF_eq zeta h1 h2, stiffInterpolation, ← pw_eq _ _ _ _ _ _ rs h, pw, pick]
    norm_num
    ring
  | pwPrec =>
    simp only [eval, published, spinInterpolate3_eq, spinF_eq zeta h1 h2, stiffInterpolation, ← pw_eq _ _ _ _ _ _ rs h, pw, pick, fDblPrime0]
    norm_num
    ring
  | vwn =>
    simp only [eval, published, spinInterpolate3_eq, spinF_eq zeta h1 h2, stiffInterpolation, vwn_eq, pick, fDblPrime0]
    norm_num
    ring
  | teter =>
    simp only [eval, published, teter, goedeckerTeter, spinF_eq zeta h1 h2]
    congr 1
    · ring
    · ring

/-- Without spin: the energy density is the published one. -/
theorem C72_energy (scaleFac n rs : ℝ) (h : 0 < n) (hr : IsRadius rs n) :
    (compute1 .slater scaleFac n).E = scaleFac * diracExchange n ∧
    (compute1 .tf scaleFac n).E = scaleFac * thomasFermi n ∧
    ∀ c, nCutoff ≤ n → (compute1 (.corr c) scaleFac n).E = scaleFac * (n * published c rs 0) := by
  refine ⟨?_, ?_, fun c hc => ?_⟩
  · simp only [compute1, slaterTurn, diracExchange, pow43 n h.le, mul_one]; ring
  · simp only [compute1, tfTurn, thomasFermi, pow53 n h.le, mul_one]
    rw [show 3 * Real.pi * Real.pi = 3 * Real.pi ^ 2 by ring]; ring
  · simp only [compute1, corr1, if_neg (not_lt.2 hc)]
    rw [radius_unique rs n h hr, eval_published c rs 0 hr.1 (by norm_num) (by norm_num)]

/-- With spin: exchange and kinetic energy treat each spin as half of an unpolarised gas of twice the density, and
correlation takes the published interpolation at the polarisation. -/
theorem C72_spin_energy (scaleFac n0 n1 rs : ℝ) (h0 : 0 ≤ n0) (h1 : 0 ≤ n1) (h : 0 < n0 + n1) (hr : IsRadius rs (n0 + n1)) :
    (compute2 .slater scaleFac n0 n1).E = scaleFac * ((diracExchange (2 * n0) + diracExchange (2 * n1)) / 2) ∧
    (compute2 .tf scaleFac n0 n1).E = scaleFac * ((thomasFermi (2 * n0) + thomasFermi (2 * n1)) / 2) ∧
    ∀ c, nCutoff ≤ n0 + n1 →
      (compute2 (.corr c) scaleFac n0 n1).E = scaleFac * ((n0 + n1) * published c rs ((n0 - n1) / (n0 + n1))) := by
  refine ⟨?_, ?_, fun c hc => ?_⟩
  · simp only [compute2, slaterTurn, diracExchange, pow43 (2 * n0) (by linarith), pow43 (2 * n1) (by linarith), mul_comm n0 2, mul_comm n1 2]
    ring
  · simp only [compute2, tfTurn, thomasFermi, pow53 (2 * n0) (by linarith), pow53 (2 * n1) (by linarith), mul_comm n0 2, mul_comm n1 2]
    rw [show 3 * Real.pi * Real.pi = 3 * Real.pi ^ 2 by ring]; ring
  · simp only [compute2, corr2, if_neg (not_lt.2 hc)]
    rw [radius_unique rs _ h hr, eval_published c rs _ hr.1 (by rw [le_div_iff₀ h]; linarith) (by rw [div_le_one h]; linarith)]

/-- The Perdew-Zunger energy is not continuous in the density: approaching `rs = 1` from below and from above the energies
per electron differ by more than 0.00003. -/
theorem C72_pz_jump_violation : ¬ ContinuousAt (fun rs => (eval .pz rs 0).e) 1 := by
  intro h
  have e : ∀ rs, (eval .pz rs 0).e = (pz true rs).e := by
    intro rs; simp [eval, spinInterpolate2]
  simp only [e] at h
  -- from the left the limit is b + d
  have hl : Tendsto (fun rs : ℝ => (0.0311 + 0.0020 * rs) * Real.log rs + -0.0480 + -0.0116 * rs) (𝓝[<] 1) (𝓝 ((0.0311 + 0.0020 * 1) * Real.log 1 + -0.0480 + -0.0116 * 1)) := by
    refine Tendsto.mono_left ?_ nhdsWithin_le_nhds
    have hc : ContinuousAt (fun rs : ℝ => (0.0311 + 0.0020 * rs) * Real.log rs + -0.0480 + -0.0116 * rs) 1 := by
      have := Real.continuousAt_log (show (1 : ℝ) ≠ 0 by norm_num)
      fun_prop
    exact hc
  have h2 : Tendsto (fun rs => (pz true rs).e) (𝓝[<] 1) (𝓝 ((pz true 1).e)) := h.tendsto.mono_left nhdsWithin_le_nhds
  have h3 : (fun rs : ℝ => (0.0311 + 0.0020 * rs) * Real.log rs + -0.0480 + -0.0116 * rs) =ᶠ[𝓝[<] 1] fun rs => (pz true rs).e := by
    filter_upwards [self_mem_nhdsWithin] with x hx
    simp only [pz, if_pos (show x < 1 from hx), if_true]
  have := tendsto_nhds_unique (hl.congr' h3) h2
  simp [pz] at this
  norm_num at this

/-- Every positive density has a radius, so the statements above are about all of them; one instance. -/
example : (∀ n, 0 < n → ∃ rs, IsRadius rs n) ∧ IsRadius 1 (3 / (4 * Real.pi)) ∧ nCutoff ≤ 3 / (4 * Real.pi) := by
  refine ⟨fun n h => ⟨_, rsOf_radius n h⟩, ⟨one_pos, ?_⟩, ?_⟩
  · have := Real.pi_pos.ne'
    field_simp
  · rw [le_div_iff₀ (by have := Real.pi_pos; positivity)]
    have := Real.pi_lt_four
    simp only [nCutoff]
    nlinarith

/-- Thomas-Fermi energy of an unpolarised density in closed form, as an instance. -/
example : (compute1 .tf 1 1).E = 0.3 * (3 * Real.pi * Real.pi) ^ (2 / 3 : ℝ) := by
  simp [compute1, tfTurn]

example : Smooth (.corr .vwn) 1 ∧ Smooth (.corr .pz) (1 / (8 * (4 * Real.pi / 3))) := by
  have hpi := Real.pi_gt_three
  have hpi4 := Real.pi_lt_four
  refine ⟨⟨by norm_num [nCutoff], by simp⟩, ?_, fun _ => Or.inr ?_⟩
  · simp only [nCutoff]
    intro h
    have h3 : 8 * (4 * Real.pi / 3) * 1e-16 = 1 := by rw [← h]; field_simp
    nlinarith
  · have : (4 * Real.pi / 3) * (1 / (8 * (4 * Real.pi / 3))) = 1 / 8 := by field_simp
    simp only [rsOf, this]
    intro h
    have h2 : (1 / 8 : ℝ) ^ (-1 / 3 : ℝ) = 2 := by
      rw [show (1 / 8 : ℝ) = 2 ^ (-3 : ℝ) by rw [Real.rpow_neg (by norm_num)]; norm_num, ← Real.rpow_mul (by norm_num)]
      norm_num
    rw [h2] at h; norm_num at h

end
end Jdftx.LDA
