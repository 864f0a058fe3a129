import Verif.Lemmas.Ewald

/-! # Lemmas for C70: strain derivatives and truncated sums -/
namespace Jdftx.Ewald
noncomputable section
open M3 Filter Topology

/-- The sums on the strained lattice, with the same Gaussian width and numbers of cells. -/
def strainP (p : Params) (e : Mat ℝ) (t : ℝ) : Params := { p with R := strained p.R e t }

theorem strained_zero (R e : Mat ℝ) : strained R e 0 = R := by funext i j; simp [strained]

theorem strainP_zero (p : Params) (e : Mat ℝ) : strainP p e 0 = p := by
  simp [strainP, strained_zero]

theorem contract_eq (s e : Mat ℝ) : contract s e =
    s 0 0 * e 0 0 + s 0 1 * e 0 1 + s 0 2 * e 0 2 + (s 1 0 * e 1 0 + s 1 1 * e 1 1 + s 1 2 * e 1 2)
      + (s 2 0 * e 2 0 + s 2 1 * e 2 1 + s 2 2 * e 2 2) := by
  simp only [contract, Fin.sum_univ_three]

theorem contract_sum {ι : Type} (s : Finset ι) (f : ι → Mat ℝ) (e : Mat ℝ) :
    ∑ i ∈ s, contract (f i) e = contract (fun a b => ∑ i ∈ s, f i a b) e := by
  simp only [contract_eq, Finset.sum_add_distrib, Finset.sum_mul]

theorem det_strained (R e : Mat ℝ) (t : ℝ) : det (strained R e t) = det R *
    (1 + t * trace e + t ^ 2 * (e 0 0 * e 1 1 - e 0 1 * e 1 0 + (e 0 0 * e 2 2 - e 0 2 * e 2 0) + (e 1 1 * e 2 2 - e 1 2 * e 2 1))
      + t ^ 3 * det e) := by
  simp only [det, box, dot, cross, row, vec, strained, trace]; ring

theorem det_deriv (R e : Mat ℝ) : HasDerivAt (fun t => det (strained R e t)) (det R * trace e) 0 := by
  simp only [det_strained]
  have h := hasDerivAt_id (0 : ℝ)
  refine (((((h.mul_const (trace e)).const_add 1).add ((h.pow 2).mul_const _)).add ((h.pow 3).mul_const _)).const_mul _).congr_deriv ?_
  simp

theorem detR_deriv (p : Params) (hR : det p.R ≠ 0) (e : Mat ℝ) :
    HasDerivAt (fun t => detR (strainP p e t)) (detR p * trace e) 0 := by
  have hD := det_deriv p.R e
  rcases lt_or_gt_of_ne hR with h | h
  · have hev : ∀ᶠ t in 𝓝 (0 : ℝ), detR (strainP p e t) = -det (strained p.R e t) := by
      filter_upwards [hD.continuousAt.eventually (gt_mem_nhds (show det (strained p.R e 0) < 0 by rw [strained_zero]; exact h))] with t ht
      exact abs_of_neg ht
    refine HasDerivAt.congr_of_eventuallyEq (hD.neg.congr_deriv ?_) hev
    rw [detR, abs_of_neg h]; ring
  · have hev : ∀ᶠ t in 𝓝 (0 : ℝ), detR (strainP p e t) = det (strained p.R e t) := by
      filter_upwards [hD.continuousAt.eventually (lt_mem_nhds (show 0 < det (strained p.R e 0) by rw [strained_zero]; exact h))] with t ht
      exact abs_of_pos ht
    refine HasDerivAt.congr_of_eventuallyEq (hD.congr_deriv ?_) hev
    rw [detR, abs_of_pos h]

theorem realS_contract (p : Params) (Z1 Z2 : ℝ) (x : V3 ℝ) (e : Mat ℝ) (h : WS.lenSq p.R x ≠ 0) :
    contract (realS p Z1 Z2 x) e
      = -(0.5 * minusErByR p Z1 Z2 (WS.lenSq p.R x)) * dot (mulMV p.R x) (mulMV e (mulMV p.R x)) := by
  rw [realS, RTR_eq, WS.metric_lenSq]
  simp only [if_neg h, contract_eq, outer, dot]
  simp only [mulMV]; ring

theorem real_strain_deriv (p : Params) (hR : det p.R ≠ 0) (Z1 Z2 : ℝ) (x : V3 ℝ) (e : Mat ℝ) :
    HasDerivAt (fun t => realE (strainP p e t) Z1 Z2 x) (contract (realS p Z1 Z2 x) e) 0 := by
  by_cases hx : x = 0
  · have h0 : ∀ t, WS.lenSq (strainP p e t).R x = 0 := by intro t; subst hx; simp [WS.lenSq, dot, mulMV]
    have e1 : (fun t => realE (strainP p e t) Z1 Z2 x) = fun _ => 0 := by
      funext t; rw [realE_eq, termE, if_pos (h0 t)]
    rw [e1]
    refine (hasDerivAt_const _ _).congr_deriv ?_
    have : WS.lenSq p.R x = 0 := by have := h0 0; rwa [strainP_zero] at this
    rw [realS, RTR_eq, WS.metric_lenSq]
    simp [if_pos this, contract_eq]
  · have hpos := WS.lenSq_pos p.R hR x hx
    let r := mulMV p.R x
    have hq : ∀ t, WS.lenSq (strainP p e t).R x
        = WS.lenSq p.R x + t * (2 * dot r (mulMV e r)) + t ^ 2 * dot (mulMV e r) (mulMV e r) := by
      intro t; simp only [WS.lenSq, strainP, strained, dot, mulMV, r]; ring
    have hd : HasDerivAt (fun t => WS.lenSq (strainP p e t).R x) (2 * dot r (mulMV e r)) 0 := by
      simp only [hq]
      have h := hasDerivAt_id (0 : ℝ)
      exact (((h.mul_const _).const_add _).add ((h.pow 2).mul_const _)).congr_deriv (by simp)
    have := termE_deriv p Z1 Z2 _ _ (by rw [strainP_zero]; exact hpos) hd
    have e1 : (fun t => realE (strainP p e t) Z1 Z2 x) = fun t => termE (eta p) Z1 Z2 (WS.lenSq (strainP p e t).R x) := by
      funext t; rw [realE_eq]; rfl
    rw [e1]
    refine this.congr_deriv ?_
    rw [strainP_zero, realS_contract _ _ _ _ _ hpos.ne']
    norm_num
    ring

/-! ## Reciprocal lattice vectors -/

/-- Cartesian components of a reciprocal lattice vector. -/
def gcart (R : Mat ℝ) (iG : Fin 3 → Int) : V3 ℝ := mulVM (toR iG) (Basis.G R)

theorem Gsq_eq (p : Params) (iG : Fin 3 → Int) : Gsq p iG = dot (gcart p.R iG) (gcart p.R iG) := by
  simp only [Gsq, GGT, Basis.GGT, gcart, metricLengthSq, mulMM, transpose, dot, mulVM]; ring

/-- Each component of the reciprocal vector times the lattice is the integer component. -/
theorem gcart_R (R : Mat ℝ) (hR : det R ≠ 0) (iG : Fin 3 → Int) :
    mulVM (gcart R iG) R = fun k => 2 * Real.pi * toR iG k := by
  have h : det R * (1 / det R) = 1 := by field_simp
  funext k
  have e : mulVM (gcart R iG) R k = 2 * Real.pi * toR iG k * (det R * (1 / det R)) := by
    simp only [gcart, mulVM, Basis.G, Basis.inv, smul]
    generalize 1 / det R = w
    match k with
    | 0 => simp only [adjugate, ofCols, cross, row, vec, det, box, dot]; ring
    | 1 => simp only [adjugate, ofCols, cross, row, vec, det, box, dot]; ring
    | 2 => simp only [adjugate, ofCols, cross, row, vec, det, box, dot]; ring
  rw [e, h, mul_one]

theorem gcart_zero (R : Mat ℝ) (hR : det R ≠ 0) (iG : Fin 3 → Int) (h : dot (gcart R iG) (gcart R iG) = 0) : iG = 0 := by
  have hz : gcart R iG = 0 := by
    funext i
    have q0 := mul_self_nonneg (gcart R iG 0)
    have q1 := mul_self_nonneg (gcart R iG 1)
    have q2 := mul_self_nonneg (gcart R iG 2)
    unfold dot at h
    match i with
    | 0 => exact mul_self_eq_zero.1 (by linarith)
    | 1 => exact mul_self_eq_zero.1 (by linarith)
    | 2 => exact mul_self_eq_zero.1 (by linarith)
  have := gcart_R R hR iG
  rw [hz] at this
  funext k
  have hk := congrFun this k
  simp only [mulVM, Pi.zero_apply] at hk
  have : toR iG k = 0 := by
    have hp := Real.pi_pos.ne'
    have : 2 * Real.pi * toR iG k = 0 := by rw [← hk]; ring
    rcases mul_eq_zero.1 this with h | h
    · exact absurd h (by positivity)
    · exact h
  simpa [toR] using this

theorem gcart_differentiable (R : Mat ℝ) (hR : det R ≠ 0) (e : Mat ℝ) (iG : Fin 3 → Int) (k : Fin 3) :
    DifferentiableAt ℝ (fun t => gcart (strained R e t) iG k) 0 := by
  have hd : DifferentiableAt ℝ (fun t => det (strained R e t)) 0 := (det_deriv R e).differentiableAt
  have h0 : det (strained R e 0) ≠ 0 := by rw [strained_zero]; exact hR
  have hadj : ∀ i j, DifferentiableAt ℝ (fun t => adjugate (strained R e t) i j) 0 := by
    intro i j
    match i, j with
    | 0, 0 | 0, 1 | 0, 2 | 1, 0 | 1, 1 | 1, 2 | 2, 0 | 2, 1 | 2, 2 =>
      simp only [adjugate, ofCols, cross, row, vec, strained]; fun_prop
  have hinv : ∀ i j, DifferentiableAt ℝ (fun t => Basis.inv (strained R e t) i j) 0 := by
    intro i j
    simp only [Basis.inv, smul]
    exact (hadj i j).mul ((differentiableAt_const 1).div hd h0)
  simp only [gcart, mulVM, Basis.G, smul]
  have a := hinv 0 k
  have b := hinv 1 k
  have c := hinv 2 k
  fun_prop

theorem mulVM_inj (R : Mat ℝ) (hR : det R ≠ 0) (v w : V3 ℝ) (h : mulVM v R = mulVM w R) : v = w := by
  rw [mulVM_eq, mulVM_eq] at h
  rw [det_eq] at hR
  exact Matrix.vecMul_injective_of_isUnit ((Matrix.isUnit_iff_isUnit_det _).2 hR.isUnit) h

/-- The reciprocal vector of the strained lattice, multiplied with the strain, is the original one. -/
theorem gcart_strained (R : Mat ℝ) (hR : det R ≠ 0) (e : Mat ℝ) (t : ℝ) (ht : det (strained R e t) ≠ 0) (iG : Fin 3 → Int) (k : Fin 3) :
    gcart (strained R e t) iG k + t * mulVM (gcart (strained R e t) iG) e k = gcart R iG k := by
  have h1 := gcart_R R hR iG
  have h2 := gcart_R (strained R e t) ht iG
  have h3 : mulVM (fun k => gcart (strained R e t) iG k + t * mulVM (gcart (strained R e t) iG) e k) R = mulVM (gcart R iG) R := by
    rw [h1, ← h2]
    funext j
    simp only [mulVM, strained]; ring
  exact congrFun (mulVM_inj R hR _ _ h3) k

theorem gcart_deriv (R : Mat ℝ) (hR : det R ≠ 0) (e : Mat ℝ) (iG : Fin 3 → Int) (k : Fin 3) :
    HasDerivAt (fun t => gcart (strained R e t) iG k) (-mulVM (gcart R iG) e k) 0 := by
  have hd := fun k => (gcart_differentiable R hR e iG k).hasDerivAt
  have hc : HasDerivAt (fun t => gcart (strained R e t) iG k + t * mulVM (gcart (strained R e t) iG) e k)
      (deriv (fun t => gcart (strained R e t) iG k) 0 + mulVM (gcart R iG) e k) 0 := by
    have hm : HasDerivAt (fun t => mulVM (gcart (strained R e t) iG) e k)
        (mulVM (fun k => deriv (fun t => gcart (strained R e t) iG k) 0) e k) 0 := by
      simp only [mulVM]
      exact ((((hd 0).mul_const (e 0 k)).const_add 0).add ((hd 1).mul_const (e 1 k))).add ((hd 2).mul_const (e 2 k)) |>.congr_deriv (by ring)
    refine ((hd k).add ((hasDerivAt_id (0 : ℝ)).mul hm)).congr_deriv ?_
    simp [strained_zero]
  have hev : (fun t => gcart (strained R e t) iG k + t * mulVM (gcart (strained R e t) iG) e k) =ᶠ[𝓝 0] fun _ => gcart R iG k := by
    have h0 : det (strained R e 0) ≠ 0 := by rw [strained_zero]; exact hR
    filter_upwards [(det_deriv R e).continuousAt.eventually_ne h0] with t ht
    exact gcart_strained R hR e t ht iG k
  have := hc.unique ((hasDerivAt_const (0 : ℝ) (gcart R iG k)).congr_of_eventuallyEq hev)
  exact (hd k).congr_deriv (by linarith)

theorem Gsq_deriv (p : Params) (hR : det p.R ≠ 0) (e : Mat ℝ) (iG : Fin 3 → Int) :
    HasDerivAt (fun t => Gsq (strainP p e t) iG) (-(2 * contract (outer (gcart p.R iG) (gcart p.R iG)) e)) 0 := by
  simp only [Gsq_eq, dot]
  have h := fun k => gcart_deriv p.R hR e iG k
  refine ((((h 0).mul (h 0)).add ((h 1).mul (h 1))).add ((h 2).mul (h 2))).congr_deriv ?_
  simp only [strained_zero, contract_eq, outer, mulVM]; ring

theorem recip_strain_deriv (p : Params) (hR : det p.R ≠ 0) {n : Nat} (Z : Fin n → ℝ) (pos : Fin n → V3 ℝ) (e : Mat ℝ) (iG : Fin 3 → Int) :
    HasDerivAt (fun t => recipE (strainP p e t) Z pos iG) (contract (recipS p Z pos iG) e) 0 := by
  by_cases hz : iG = 0
  · have h0 : ∀ q : Params, Gsq q iG = 0 := by
      intro q; subst hz; simp [Gsq, metricLengthSq, toR]
    simp only [recipE, recipS, if_pos (h0 _)]
    exact (hasDerivAt_const _ _).congr_deriv (by simp [contract_eq])
  · have hne : Gsq p iG ≠ 0 := fun h => hz (gcart_zero p.R hR iG (by rw [← Gsq_eq]; exact h))
    have hG := Gsq_deriv p hR e iG
    have hD := detR_deriv p hR e
    have hd0 : detR p ≠ 0 := abs_ne_zero.2 hR
    have hE : HasDerivAt (fun t => eG (strainP p e t) iG)
        (contract (fun i j => eG p iG * (p.sigma * p.sigma + 2 / Gsq p iG) * outer (gcart p.R iG) (gcart p.R iG) i j
          - eG p iG * diag 1 1 1 i j) e) 0 := by
      have h1 := ((hG.const_mul (-0.5 * (p.sigma * p.sigma))).exp).const_mul (4 * Real.pi)
      have h2 := h1.div (hG.mul hD) (by rw [Pi.mul_apply, strainP_zero]; exact mul_ne_zero hne hd0)
      refine h2.congr_deriv ?_
      have hc : ∀ A B : ℝ, contract (fun i j => A * outer (gcart p.R iG) (gcart p.R iG) i j - B * diag 1 1 1 i j) e
          = A * contract (outer (gcart p.R iG) (gcart p.R iG)) e - B * trace e := by
        intro A B
        simp [contract_eq, trace, diag, vec]; ring
      rw [hc]
      simp only [Pi.mul_apply, strainP_zero, eG]
      generalize Real.exp (-0.5 * (p.sigma * p.sigma) * Gsq p iG) = ex
      generalize contract (outer (gcart p.R iG) (gcart p.R iG)) e = X
      generalize trace e = T
      field_simp
      ring
    have hev : ∀ᶠ t in 𝓝 (0 : ℝ), recipE (strainP p e t) Z pos iG = 0.5 * eG (strainP p e t) iG * Complex.normSq (SG Z pos iG) := by
      have : Gsq (strainP p e 0) iG ≠ 0 := by rw [strainP_zero]; exact hne
      filter_upwards [hG.continuousAt.eventually_ne this] with t ht
      rw [recipE, if_neg ht]
    refine HasDerivAt.congr_of_eventuallyEq (((hE.const_mul 0.5).mul_const _).congr_deriv ?_) hev
    have eS : recipS p Z pos iG = fun i j => (0.5 * Complex.normSq (SG Z pos iG)) *
        (eG p iG * (p.sigma * p.sigma + 2 / Gsq p iG) * outer (gcart p.R iG) (gcart p.R iG) i j - eG p iG * diag 1 1 1 i j) := by
      simp only [recipS, if_neg hne]; rfl
    rw [eS]
    simp only [contract_eq]; ring

/-! ## Slab -/

theorem eta_sq (p : Params) (hs : 0 < p.sigma) : eta p * eta p * (2 * (p.sigma * p.sigma)) = 1 := by
  have h : Real.sqrt 0.5 * Real.sqrt 0.5 = 0.5 := Real.mul_self_sqrt (by norm_num)
  simp only [eta]
  have := hs.ne'
  field_simp
  rw [sq, h]; norm_num

theorem zTermG_deriv (p : Params) (hs : 0 < p.sigma) (G : ℝ) (hG : G ≠ 0) (z : ℝ) :
    HasDerivAt (fun z => zTermG p G z) (zTermPrimeG p G z) z := by
  have hid := hasDerivAt_id z
  have hexp : HasDerivAt (fun z => Real.exp (G * z)) (Real.exp (G * z) * (G * 1)) z := (hid.const_mul G).exp
  have hne : Real.exp (G * z) ≠ 0 := (Real.exp_pos _).ne'
  have hexpm := (hasDerivAt_const z (1 : ℝ)).div hexp hne
  have hp := (Smear.erfc_deriv (eta p * (p.sigma * p.sigma * G + z))).comp z ((hid.const_add (p.sigma * p.sigma * G)).const_mul (eta p))
  have hm := (Smear.erfc_deriv (eta p * (p.sigma * p.sigma * G - z))).comp z ((hid.const_sub (p.sigma * p.sigma * G)).const_mul (eta p))
  refine ((((hexp.mul hp).add (hexpm.mul hm))).const_mul (0.5 / G)).congr_deriv ?_
  have hc : Real.exp (G * z) * Real.exp (-(eta p * (p.sigma * p.sigma * G + z)) ^ 2)
      = 1 / Real.exp (G * z) * Real.exp (-(eta p * (p.sigma * p.sigma * G - z)) ^ 2) := by
    rw [one_div, ← Real.exp_neg, ← Real.exp_add, ← Real.exp_add]
    congr 1
    linear_combination (-2 * G * z) * eta_sq p hs
  simp only [Function.comp, zTermPrimeG, Pi.div_apply, id]
  have e1 : (0 * Real.exp (G * z) - 1 * (Real.exp (G * z) * (G * 1))) / Real.exp (G * z) ^ 2 = -(G * (1 / Real.exp (G * z))) := by
    field_simp; ring
  rw [e1]
  have e2 : (0.5 : ℝ) / G * G = 0.5 := by field_simp
  linear_combination (Real.exp (G * z) * Smear.erfc (eta p * (p.sigma * p.sigma * G + z))
    - 1 / Real.exp (G * z) * Smear.erfc (eta p * (p.sigma * p.sigma * G - z))) * e2
    - (0.5 / G * (2 / Real.sqrt Real.pi) * eta p) * hc

theorem zTerm0_deriv (p : Params) (hs : 0 < p.sigma) (z : ℝ) : HasDerivAt (fun z => zTerm0 p z) (zTermPrime0 p z) z := by
  have hid := hasDerivAt_id z
  have he := ((Smear.erfc_deriv (eta p * z)).comp z (hid.const_mul (eta p))).const_sub 1
  have hg := (((hid.mul hid).const_mul (-(eta p * eta p))).exp).const_mul (1 / (eta p * Real.sqrt Real.pi))
  have e : (fun z => zTerm0 p z) = fun z => -z * (1 - Smear.erfc (eta p * z))
      - 1 / (eta p * Real.sqrt Real.pi) * Real.exp (-(eta p * eta p) * (z * z)) := by
    funext z; simp only [zTerm0, erf, mul_assoc]
  rw [e]
  refine ((hid.neg.mul he).sub hg).congr_deriv ?_
  have heta : eta p ≠ 0 := fun h => by have := eta_sq p hs; rw [h] at this; norm_num at this
  have hp : Real.sqrt Real.pi ≠ 0 := (Real.sqrt_pos.2 Real.pi_pos).ne'
  simp only [zTermPrime0, erf, Function.comp, Pi.neg_apply, Pi.mul_apply, id]
  have e1 : -(eta p * z) ^ 2 = -(eta p * eta p) * (z * z) := by ring
  rw [e1]
  generalize Real.exp (-(eta p * eta p) * (z * z)) = ex
  field_simp
  ring

/-- Derivative of one reciprocal-space term of a pair along a change of the separation. -/
theorem slab_term_deriv (p : Params) (hs : 0 < p.sigma) (iDir : Fin 3) (pf : ℝ) (r v : V3 ℝ) (iG : Fin 3 → Int)
    (h100 : |Real.sqrt (Gsq p iG) * (slabL p iDir * r iDir)| ≠ 100) :
    HasDerivAt (fun t => slabE p iDir pf (fun k => r k + t * v k) iG) (dot (slabG p iDir pf r iG) v) 0 := by
  have hz : HasDerivAt (fun t : ℝ => slabL p iDir * (r iDir + t * v iDir)) (slabL p iDir * v iDir) 0 := by
    have h := hasDerivAt_id (0 : ℝ)
    exact (((h.mul_const (v iDir)).const_add (r iDir)).const_mul (slabL p iDir)).congr_deriv (by simp)
  have hl : HasDerivAt (fun t => 2 * Real.pi * dot (toR iG) (fun k => r k + t * v k)) (2 * Real.pi * dot (toR iG) v) 0 := by
    have e : (fun t => 2 * Real.pi * dot (toR iG) (fun k => r k + t * v k))
        = fun t => 2 * Real.pi * dot (toR iG) r + t * (2 * Real.pi * dot (toR iG) v) := by
      funext t; simp only [dot]; ring
    rw [e]
    exact (((hasDerivAt_id (0 : ℝ)).mul_const _).const_add _).congr_deriv (by simp)
  have hdot : ∀ A B : ℝ, dot (fun k => A * toR iG k + (if k = iDir then B else 0)) v = A * dot (toR iG) v + B * v iDir := by
    intro A B
    match iDir with
    | 0 => simp [dot]; ring
    | 1 => simp [dot]; ring
    | 2 => simp [dot]; ring
  have r0 : (fun k => r k + 0 * v k) = r := by funext k; ring
  have z0 : slabL p iDir * (r iDir + 0 * v iDir) = slabL p iDir * r iDir := by ring
  by_cases hG : Gsq p iG = 0
  · have hne : ¬ (Gsq p iG ≠ 0) := fun h => h hG
    simp only [slabE, slabG, if_neg hne]
    rw [hdot]
    have h1 := (zTerm0_deriv p hs (slabL p iDir * (r iDir + 0 * v iDir))).comp 0 hz
    refine (((hl.cos).const_mul pf).mul h1).congr_deriv ?_
    simp only [Function.comp, r0, z0]; ring
  · simp only [slabE, slabG, if_pos hG]
    have hsq : Real.sqrt (Gsq p iG) ≠ 0 := by
      refine (Real.sqrt_pos.2 (lt_of_le_of_ne ?_ (Ne.symm hG))).ne'
      rw [Gsq_eq]; unfold dot
      nlinarith [mul_self_nonneg (gcart p.R iG 0), mul_self_nonneg (gcart p.R iG 1), mul_self_nonneg (gcart p.R iG 2)]
    have hcont : ContinuousAt (fun t : ℝ => |Real.sqrt (Gsq p iG) * (slabL p iDir * (r iDir + t * v iDir))|) 0 := by fun_prop
    by_cases hb : 100 < |Real.sqrt (Gsq p iG) * (slabL p iDir * r iDir)|
    · rw [if_pos hb]
      have hev : ∀ᶠ t in 𝓝 (0 : ℝ), (if 100 < |Real.sqrt (Gsq p iG) * (slabL p iDir * (r iDir + t * v iDir))| then (0 : ℝ) else
          pf * Real.cos (2 * Real.pi * dot (toR iG) fun k => r k + t * v k) * zTermG p (Real.sqrt (Gsq p iG)) (slabL p iDir * (r iDir + t * v iDir))) = 0 := by
        have := hcont.eventually (lt_mem_nhds (show (100 : ℝ) < |Real.sqrt (Gsq p iG) * (slabL p iDir * (r iDir + 0 * v iDir))| by rw [z0]; exact hb))
        filter_upwards [this] with t ht
        rw [if_pos ht]
      refine HasDerivAt.congr_of_eventuallyEq ((hasDerivAt_const _ _).congr_deriv ?_) hev
      simp [dot]
    · rw [if_neg hb]
      have hb' : |Real.sqrt (Gsq p iG) * (slabL p iDir * r iDir)| < 100 := lt_of_le_of_ne (not_lt.1 hb) h100
      have hev : ∀ᶠ t in 𝓝 (0 : ℝ), (if 100 < |Real.sqrt (Gsq p iG) * (slabL p iDir * (r iDir + t * v iDir))| then (0 : ℝ) else
          pf * Real.cos (2 * Real.pi * dot (toR iG) fun k => r k + t * v k) * zTermG p (Real.sqrt (Gsq p iG)) (slabL p iDir * (r iDir + t * v iDir)))
          = pf * Real.cos (2 * Real.pi * dot (toR iG) fun k => r k + t * v k) * zTermG p (Real.sqrt (Gsq p iG)) (slabL p iDir * (r iDir + t * v iDir)) := by
        have := hcont.eventually (gt_mem_nhds (show |Real.sqrt (Gsq p iG) * (slabL p iDir * (r iDir + 0 * v iDir))| < (100 : ℝ) by rw [z0]; exact hb'))
        filter_upwards [this] with t ht
        rw [if_neg (not_lt.2 ht.le)]
      rw [hdot]
      have h1 := (zTermG_deriv p hs _ hsq (slabL p iDir * (r iDir + 0 * v iDir))).comp 0 hz
      refine HasDerivAt.congr_of_eventuallyEq ((((hl.cos).const_mul pf).mul h1).congr_deriv ?_) hev
      simp only [Function.comp, r0, z0]; ring

/-- Derivative of `zTermG` along a joint change of both arguments. -/
theorem zTermG_path (p : Params) (hs : 0 < p.sigma) (G z : ℝ → ℝ) (G' z' : ℝ) (hG0 : G 0 ≠ 0)
    (hG : HasDerivAt G G' 0) (hz : HasDerivAt z z' 0) :
    HasDerivAt (fun t => zTermG p (G t) (z t)) (zTermPrimeG p (G 0) (z 0) * z' - minusZtermGbyG p (G 0) (z 0) * G 0 * G') 0 := by
  have hexp := (hG.mul hz).exp
  have hne : Real.exp ((G * z) 0) ≠ 0 := (Real.exp_pos _).ne'
  have hexpm := (hasDerivAt_const (0 : ℝ) (1 : ℝ)).div hexp hne
  have hp := (Smear.erfc_deriv (eta p * (p.sigma * p.sigma * G 0 + z 0))).comp 0 (((hG.const_mul (p.sigma * p.sigma)).add hz).const_mul (eta p))
  have hm := (Smear.erfc_deriv (eta p * (p.sigma * p.sigma * G 0 - z 0))).comp 0 (((hG.const_mul (p.sigma * p.sigma)).sub hz).const_mul (eta p))
  have hh := (hasDerivAt_const (0 : ℝ) (0.5 : ℝ)).div hG hG0
  refine (hh.mul ((hexp.mul hp).add (hexpm.mul hm))).congr_deriv ?_
  simp only [Function.comp, Pi.mul_apply, Pi.div_apply, Pi.add_apply]
  have hsq := eta_sq p hs
  have hc1 : Real.exp (G 0 * z 0) * Real.exp (-(eta p * (p.sigma * p.sigma * G 0 + z 0)) ^ 2)
      = Real.exp (-(0.5 * (p.sigma * p.sigma) * (G 0 * G 0) + eta p * eta p * z 0 * z 0)) := by
    rw [← Real.exp_add]; congr 1
    linear_combination (-(G 0 * z 0) - 0.5 * (p.sigma * p.sigma) * G 0 * G 0) * hsq
  have hc2 : 1 / Real.exp (G 0 * z 0) * Real.exp (-(eta p * (p.sigma * p.sigma * G 0 - z 0)) ^ 2)
      = Real.exp (-(0.5 * (p.sigma * p.sigma) * (G 0 * G 0) + eta p * eta p * z 0 * z 0)) := by
    rw [one_div, ← Real.exp_neg, ← Real.exp_add]; congr 1
    linear_combination ((G 0 * z 0) - 0.5 * (p.sigma * p.sigma) * G 0 * G 0) * hsq
  have hcoef : p.sigma * Real.sqrt (2 / Real.pi) = 2 / Real.sqrt Real.pi * (eta p * (p.sigma * p.sigma)) := by
    have h1 : Real.sqrt (2 / Real.pi) = Real.sqrt 2 / Real.sqrt Real.pi := Real.sqrt_div (by norm_num) _
    have h2 : Real.sqrt 0.5 = Real.sqrt 2 / 2 := by
      rw [show (0.5 : ℝ) = 2 / 2 ^ 2 by norm_num, Real.sqrt_div (by norm_num), Real.sqrt_sq (by norm_num)]
    have := hs.ne'
    rw [h1, eta, h2]; field_simp
  simp only [minusZtermGbyG, zTermPrimeG, zTermG]
  rw [hcoef]
  generalize Real.exp (-(0.5 * (p.sigma * p.sigma) * (G 0 * G 0) + eta p * eta p * z 0 * z 0)) = W at *
  generalize Real.exp (-(eta p * (p.sigma * p.sigma * G 0 + z 0)) ^ 2) = X1 at *
  generalize Real.exp (-(eta p * (p.sigma * p.sigma * G 0 - z 0)) ^ 2) = X2 at *
  have hex : Real.exp (G 0 * z 0) ≠ 0 := (Real.exp_pos _).ne'
  have e1 : ∀ D : ℝ, (0 * Real.exp (G 0 * z 0) - 1 * (Real.exp (G 0 * z 0) * D)) / Real.exp (G 0 * z 0) ^ 2 = -(D * (1 / Real.exp (G 0 * z 0))) := by
    intro D; field_simp; ring
  rw [e1]
  generalize Real.exp (G 0 * z 0) = P at *
  generalize 1 / P = Q at *
  generalize Smear.erfc (eta p * (p.sigma * p.sigma * G 0 + z 0)) = C1
  generalize Smear.erfc (eta p * (p.sigma * p.sigma * G 0 - z 0)) = C2
  generalize 2 / Real.sqrt Real.pi = κ
  have e2 : P * X1 = W := hc1
  have e3 : Q * X2 = W := hc2
  have hi : G 0 * (1 / G 0) = 1 := by field_simp
  have f1 : (0 * G 0 - 0.5 * G') / G 0 ^ 2 = -0.5 * G' * (1 / G 0) ^ 2 := by field_simp; ring
  have f2 : ∀ A : ℝ, A / (G 0 * G 0) = A * (1 / G 0) ^ 2 := by intro A; field_simp
  rw [f1, f2, div_eq_mul_one_div (0.5 : ℝ) (G 0)]
  generalize 1 / G 0 = I at *
  generalize G 0 = g at *
  generalize z 0 = y at *
  generalize p.sigma * p.sigma = s2 at *
  generalize eta p = η at *
  linear_combination (0.5 * I * (-κ * η * (s2 * G' + z'))) * e2 + (0.5 * I * (-κ * η * (s2 * G' - z'))) * e3
    + (0.5 * z' * (P * C1 - Q * C2) - 0.5 * I * G' * y * (P * C1 - Q * C2) + 0.5 * G' * I ^ 2 * (P * C1 + Q * C2)
      + κ * η * s2 * W * I * G') * hi

theorem slabL_sq (p : Params) (iDir : Fin 3) : RTR p iDir iDir = dot (column p.R iDir) (column p.R iDir) := by
  simp only [RTR, mulMM, transpose, dot, column, vec]; ring

theorem slabL_deriv (p : Params) (iDir : Fin 3) (hL : 0 < slabL p iDir) (e : Mat ℝ) :
    HasDerivAt (fun t => slabL (strainP p e t) iDir) (slabL p iDir * contract (outer (zHat p iDir) (zHat p iDir)) e) 0 := by
  have hq : ∀ t, RTR (strainP p e t) iDir iDir = RTR p iDir iDir + t * (2 * dot (column p.R iDir) (mulMV e (column p.R iDir)))
      + t ^ 2 * dot (mulMV e (column p.R iDir)) (mulMV e (column p.R iDir)) := by
    intro t; simp only [slabL_sq, strainP, strained, dot, column, vec, mulMV]; ring
  have hd : HasDerivAt (fun t => RTR (strainP p e t) iDir iDir) (2 * dot (column p.R iDir) (mulMV e (column p.R iDir))) 0 := by
    simp only [hq]
    have h := hasDerivAt_id (0 : ℝ)
    exact (((h.mul_const _).const_add _).add ((h.pow 2).mul_const _)).congr_deriv (by simp)
  have hne : RTR (strainP p e 0) iDir iDir ≠ 0 := by
    rw [strainP_zero]; exact (Real.sqrt_pos.1 hL).ne'
  refine (hd.sqrt hne).congr_deriv ?_
  rw [strainP_zero]
  have hlen : Basis.length (column p.R iDir) = slabL p iDir := by
    rw [slabL, slabL_sq]; rfl
  have hs : Real.sqrt (RTR p iDir iDir) = slabL p iDir := rfl
  have hne' := hL.ne'
  rw [hs]
  simp only [contract_eq, outer, zHat, hlen, dot, mulMV]
  field_simp
  ring

theorem volPrefac_deriv (p : Params) (hR : det p.R ≠ 0) (iDir : Fin 3) (hL : 0 < slabL p iDir) (e : Mat ℝ) :
    HasDerivAt (fun t => volPrefac (strainP p e t) iDir)
      (volPrefac p iDir * (contract (outer (zHat p iDir) (zHat p iDir)) e - trace e)) 0 := by
  have hd0 : detR (strainP p e 0) ≠ 0 := by rw [strainP_zero]; exact abs_ne_zero.2 hR
  have h := ((slabL_deriv p iDir hL e).const_mul Real.pi).div (detR_deriv p hR e) hd0
  refine h.congr_deriv ?_
  have hd : |det p.R| ≠ 0 := abs_ne_zero.2 hR
  simp only [strainP_zero, volPrefac, detR]
  field_simp

theorem slab_strain_deriv (p : Params) (hs : 0 < p.sigma) (hR : det p.R ≠ 0) (iDir : Fin 3) (hL : 0 < slabL p iDir)
    (w : ℝ) (r : V3 ℝ) (iG : Fin 3 → Int) (e : Mat ℝ) (h100 : |Real.sqrt (Gsq p iG) * (slabL p iDir * r iDir)| ≠ 100) :
    HasDerivAt (fun t => slabE (strainP p e t) iDir (volPrefac (strainP p e t) iDir * w) r iG)
      (slabSG p iDir (volPrefac p iDir * w) r iG * contract (outer (gcart p.R iG) (gcart p.R iG)) e
        + slabSz p iDir (volPrefac p iDir * w) r iG * contract (outer (zHat p iDir) (zHat p iDir)) e
        + slabE p iDir (volPrefac p iDir * w) r iG * (contract (outer (zHat p iDir) (zHat p iDir)) e - trace e)) 0 := by
  have hV := volPrefac_deriv p hR iDir hL e
  have hz : HasDerivAt (fun t => slabL (strainP p e t) iDir * r iDir) (slabL p iDir * contract (outer (zHat p iDir) (zHat p iDir)) e * r iDir) 0 :=
    (slabL_deriv p iDir hL e).mul_const _
  generalize contract (outer (zHat p iDir) (zHat p iDir)) e = zz at *
  by_cases hG : iG = 0
  · have h0 : ∀ q : Params, Gsq q iG = 0 := by intro q; subst hG; simp [Gsq, metricLengthSq, toR]
    have hne : ∀ q : Params, ¬ (Gsq q iG ≠ 0) := fun q h => h (h0 q)
    simp only [slabE, slabSG, slabSz, if_neg (hne _)]
    have h1 := (zTerm0_deriv p hs (slabL (strainP p e 0) iDir * r iDir)).comp 0 hz
    have h2 := ((hV.mul_const w).mul_const (Real.cos (2 * Real.pi * dot (toR iG) r))).mul h1
    refine (h2.congr_deriv ?_)
    simp only [Function.comp, strainP_zero]; ring
  · have hne : Gsq p iG ≠ 0 := fun h => hG (gcart_zero p.R hR iG (by rw [← Gsq_eq]; exact h))
    have hGd := Gsq_deriv p hR e iG
    generalize contract (outer (gcart p.R iG) (gcart p.R iG)) e = gg at *
    have hgpos : 0 < Gsq p iG := by
      refine lt_of_le_of_ne ?_ (Ne.symm hne)
      rw [Gsq_eq]; unfold dot
      nlinarith [mul_self_nonneg (gcart p.R iG 0), mul_self_nonneg (gcart p.R iG 1), mul_self_nonneg (gcart p.R iG 2)]
    have hsq : Real.sqrt (Gsq p iG) ≠ 0 := (Real.sqrt_pos.2 hgpos).ne'
    have hS := hGd.sqrt (by rw [strainP_zero]; exact hne)
    have hevG : ∀ᶠ t in 𝓝 (0 : ℝ), Gsq (strainP p e t) iG ≠ 0 :=
      hGd.continuousAt.eventually_ne (by rw [strainP_zero]; exact hne)
    have hcont : ContinuousAt (fun t : ℝ => |Real.sqrt (Gsq (strainP p e t) iG) * (slabL (strainP p e t) iDir * r iDir)|) 0 :=
      (hS.continuousAt.mul hz.continuousAt).abs
    by_cases hb : 100 < |Real.sqrt (Gsq p iG) * (slabL p iDir * r iDir)|
    · have hev : ∀ᶠ t in 𝓝 (0 : ℝ), slabE (strainP p e t) iDir (volPrefac (strainP p e t) iDir * w) r iG = 0 := by
        have := hcont.eventually (lt_mem_nhds (show (100 : ℝ) < |Real.sqrt (Gsq (strainP p e 0) iG) * (slabL (strainP p e 0) iDir * r iDir)| by
          rw [strainP_zero]; exact hb))
        filter_upwards [this, hevG] with t ht hg
        simp only [slabE, if_pos hg]
        rw [if_pos ht]
      refine HasDerivAt.congr_of_eventuallyEq ((hasDerivAt_const _ _).congr_deriv ?_) hev
      simp only [slabE, slabSG, slabSz, if_pos hne, if_pos hb]; ring
    · have hb' : |Real.sqrt (Gsq p iG) * (slabL p iDir * r iDir)| < 100 := lt_of_le_of_ne (not_lt.1 hb) h100
      have hev : ∀ᶠ t in 𝓝 (0 : ℝ), slabE (strainP p e t) iDir (volPrefac (strainP p e t) iDir * w) r iG
          = volPrefac (strainP p e t) iDir * w * Real.cos (2 * Real.pi * dot (toR iG) r)
            * zTermG p (Real.sqrt (Gsq (strainP p e t) iG)) (slabL (strainP p e t) iDir * r iDir) := by
        have := hcont.eventually (gt_mem_nhds (show |Real.sqrt (Gsq (strainP p e 0) iG) * (slabL (strainP p e 0) iDir * r iDir)| < (100 : ℝ) by
          rw [strainP_zero]; exact hb'))
        filter_upwards [this, hevG] with t ht hg
        simp only [slabE, if_pos hg]
        rw [if_neg (not_lt.2 ht.le)]
        rfl
      have h1 := zTermG_path p hs _ _ _ _ (by rw [strainP_zero]; exact hsq) hS hz
      have h2 := ((hV.mul_const w).mul_const (Real.cos (2 * Real.pi * dot (toR iG) r))).mul h1
      refine HasDerivAt.congr_of_eventuallyEq (h2.congr_deriv ?_) hev
      simp only [slabE, slabSG, slabSz, if_pos hne, if_neg hb, strainP_zero]
      generalize minusZtermGbyG p (Real.sqrt (Gsq p iG)) (slabL p iDir * r iDir) = M
      generalize zTermG p (Real.sqrt (Gsq p iG)) (slabL p iDir * r iDir) = T
      generalize zTermPrimeG p (Real.sqrt (Gsq p iG)) (slabL p iDir * r iDir) = T'
      generalize Real.sqrt (Gsq p iG) = G at *
      field_simp
      ring

end
end Jdftx.Ewald
