import Verif.Lemmas.EwaldStress

/-!
# C70: energies, forces and stresses of the ions in each other's field
-/
namespace Jdftx.Ewald
noncomputable section
open M3 Filter Topology

theorem dot_add (v w u : V3 ℝ) : dot (fun k => v k + w k) u = dot v u + dot w u := by simp only [dot]; ring

/-! ## Periodic in three directions -/

/-- The force that the periodic sum adds to an atom is minus the derivative of the energy it returns with respect to the
position of this atom, in every direction, for every lattice, Gaussian width and number of cells. -/
theorem C70_periodic_forces (p : Params) (hR : det p.R ≠ 0) {n : Nat} (Z : Fin n → ℝ) (pos : Fin n → V3 ℝ)
    (hA : Apart pos) (hO : OffBoundary pos) (c : Fin n) (u : V3 ℝ) :
    HasDerivAt (fun t => (periodic p Z (displace pos c u t)).E) (-dot ((periodic p Z pos).force c) u) 0 := by
  by_cases hz : ∑ a, Z a * Z a = 0
  · simp only [periodic, if_pos hz]
    exact (hasDerivAt_const _ _).congr_deriv (by simp [dot])
  · simp only [periodic, if_neg hz]
    have hA' : Apart fun a k => wrap (pos a k) := apart_wrap pos (fun a k => ⌊0.5 + pos a k⌋) hA
    have h1 := real_sum_deriv p hR Z (fun a k => wrap (pos a k)) hA' c u
    have h2 := HasDerivAt.fun_sum fun iG (_ : iG ∈ cells p.Nrecip) => recip_term_deriv p Z (fun a k => wrap (pos a k)) c u iG
    have h3 := (h1.const_add (0.5 * 4 * Real.pi * (∑ a, Z a) * (∑ a, Z a) * (-0.5 * (p.sigma * p.sigma)) / detR p
        - 0.5 * (∑ a, Z a * Z a) * eta p * (2 / Real.sqrt Real.pi))).add h2
    refine HasDerivAt.congr_of_eventuallyEq (h3.congr_deriv ?_) ?_
    · rw [dot_add, Finset.sum_neg_distrib, dot_sum, neg_add]
      rfl
    · filter_upwards [wrap_displace pos c u hO] with t ht
      have ht' : ∀ a, (fun k => wrap (displace pos c u t a k)) = displace (fun a k => wrap (pos a k)) c u t a := fun a => congrFun ht a
      simp only [ht', ht]
      rfl

/-- The matrix that the periodic sum returns is the derivative of the energy with respect to strain of the lattice at fixed
lattice coordinates of the atoms, Gaussian width and numbers of cells. -/
theorem C70_periodic_stress (p : Params) (hR : det p.R ≠ 0) {n : Nat} (Z : Fin n → ℝ) (pos : Fin n → V3 ℝ) (e : Mat ℝ) :
    HasDerivAt (fun t => (periodic { p with R := strained p.R e t } Z pos).E) (contract (periodic p Z pos).stress e) 0 := by
  by_cases hz : ∑ a, Z a * Z a = 0
  · simp only [periodic, if_pos hz]
    exact (hasDerivAt_const _ _).congr_deriv (by simp [contract_eq])
  · simp only [periodic, if_neg hz]
    let pos' := fun (a : Fin n) (k : Fin 3) => wrap (pos a k)
    let K := 0.5 * 4 * Real.pi * (∑ a, Z a) * (∑ a, Z a) * (-0.5 * (p.sigma * p.sigma))
    have hd0 : detR (strainP p e 0) ≠ 0 := by rw [strainP_zero]; exact abs_ne_zero.2 hR
    have h0 := ((hasDerivAt_const (0 : ℝ) K).div (detR_deriv p hR e) hd0).sub_const (0.5 * (∑ a, Z a * Z a) * eta p * (2 / Real.sqrt Real.pi))
    have h1 := HasDerivAt.fun_sum fun a2 (_ : a2 ∈ (Finset.univ : Finset (Fin n))) =>
      HasDerivAt.fun_sum fun a1 (_ : a1 ∈ (Finset.univ : Finset (Fin n))) =>
        HasDerivAt.fun_sum fun iR (_ : iR ∈ cells p.Nreal) => real_strain_deriv p hR (Z a1) (Z a2) (sep iR (pos' a1) (pos' a2)) e
    have h2 := HasDerivAt.fun_sum fun iG (_ : iG ∈ cells p.Nrecip) => recip_strain_deriv p hR Z pos' e iG
    refine ((h0.add h1).add h2).congr_deriv ?_
    rw [strainP_zero]
    simp only [contract_sum]
    have hd : detR p ≠ 0 := abs_ne_zero.2 hR
    have e0 : (0 * detR p - K * (detR p * trace e)) / detR p ^ 2 = -(K / detR p) * trace e := by field_simp; ring
    rw [e0]
    simp only [contract_eq, trace, diag, vec, K, pos']
    simp
    ring

/-- The forces of the periodic sum add up to zero. -/
theorem C70_periodic_momentum (p : Params) {n : Nat} (Z : Fin n → ℝ) (pos : Fin n → V3 ℝ) (k : Fin 3) :
    ∑ a, (periodic p Z pos).force a k = 0 := by
  by_cases hz : ∑ a, Z a * Z a = 0
  · simp [periodic, if_pos hz]
  · simp only [periodic, if_neg hz]
    rw [Finset.sum_add_distrib, Finset.sum_comm (s := Finset.univ) (t := cells p.Nrecip)]
    have h1 := realForce_total p Z (fun a k => wrap (pos a k)) k
    simp only [realForce] at h1
    rw [h1, zero_add]
    exact Finset.sum_eq_zero fun iG _ => recip_total p Z _ iG k

/-- Moving atoms by whole lattice vectors changes nothing. -/
theorem C70_periodic_images (p : Params) {n : Nat} (Z : Fin n → ℝ) (pos : Fin n → V3 ℝ) (m : Fin n → Fin 3 → Int) :
    periodic p Z (fun a k => pos a k + (m a k : ℝ)) = periodic p Z pos := by
  have h : ∀ a k, wrap (pos a k + (m a k : ℝ)) = wrap (pos a k) := by
    intro a k
    simp only [wrap]
    rw [← add_assoc, Int.floor_add_intCast]; push_cast; ring
  simp only [periodic, h]

/-- A cubic cell with two opposite charges, as in rock salt. -/
def salt : Params := { R := diag 10 10 10, sigma := 1, Nreal := fun _ => 2, Nrecip := fun _ => 3 }
/-- Positions of the two ions. -/
def saltPos : Fin 2 → V3 ℝ := fun a _ => if a = 0 then 0 else 1 / 4

theorem saltPos_ok : Apart saltPos ∧ OffBoundary saltPos := by
  have h4 : ∀ q : Int, (q : ℝ) ≠ 1 / 4 := by
    intro q h
    have : (4 * q : ℝ) = 1 := by linarith
    have : (4 * q : Int) = 1 := by exact_mod_cast this
    omega
  constructor
  · intro a b hab m
    refine ⟨0, ?_⟩
    match a, b with
    | 0, 0 => exact absurd rfl hab
    | 1, 1 => exact absurd rfl hab
    | 0, 1 => simp only [saltPos]; simp; intro h; exact h4 (-(m 0)) (by push_cast; linarith)
    | 1, 0 => simp only [saltPos]; simp; intro h; exact h4 (m 0) (by linarith)
  · intro a k m h
    match a with
    | 0 =>
      simp only [saltPos, if_true] at h
      have : (2 * m + 1 : Int) = 0 := by exact_mod_cast (show (2 * m + 1 : ℝ) = 0 by linarith)
      omega
    | 1 =>
      simp [saltPos] at h
      exact h4 (-m) (by push_cast; linarith)

theorem salt_det : det salt.R ≠ 0 := by simp [salt, det, box, dot, cross, row, vec, diag]

example : det salt.R ≠ 0 ∧ Apart saltPos ∧ OffBoundary saltPos ∧ ∑ a, (![1, -1] : Fin 2 → ℝ) a * ![1, -1] a ≠ 0 :=
  ⟨salt_det, saltPos_ok.1, saltPos_ok.2, by simp⟩

/-! ## Periodic in two directions -/

/-- Force on each atom from the pair part of the slab sum. -/
theorem slab_ok {n : Nat} (p : Params) (iDir : Fin 3) (ionMargin : ℝ) (Z : Fin (n + 1) → ℝ) (pos0 : Fin (n + 1) → V3 ℝ)
    (h : ¬ ∑ a, Z a * Z a = 0) (out : Out (n + 1)) (hok : slab p iDir ionMargin Z pos0 = .ok out) :
    ∀ i1 i2, |slabL p iDir * (slabWrap iDir (pos0 0 iDir) pos0 i1 iDir - slabWrap iDir (pos0 0 iDir) pos0 i2 iDir)| < 0.5 * slabL p iDir - ionMargin := by
  simp only [slab, if_neg h] at hok
  split at hok
  · exact absurd hok (by simp)
  · next hn =>
    push Not at hn
    intro i1 i2
    rcases le_total i2 i1 with hl | hl
    · exact hn i1 i2 hl
    · have := hn i2 i1 hl
      rwa [← abs_neg, ← mul_neg, neg_sub] at this

theorem slabWrap_displace {n : Nat} (iDir : Fin 3) (pos : Fin (n + 1) → V3 ℝ) (c : Fin (n + 1)) (u : V3 ℝ)
    (hO : ∀ a k, k ≠ iDir → ∀ m : Int, pos a k ≠ m + 1 / 2)
    (hI : ∀ a, ∀ m : Int, pos a iDir - pos 0 iDir ≠ m + 1 / 2) :
    ∀ᶠ t in 𝓝 (0 : ℝ), slabWrap iDir (displace pos c u t 0 iDir) (displace pos c u t)
      = displace (slabWrap iDir (pos 0 iDir) pos) c u t := by
  have : ∀ a k, ∀ᶠ t in 𝓝 (0 : ℝ), slabWrap iDir (displace pos c u t 0 iDir) (displace pos c u t) a k
      = displace (slabWrap iDir (pos 0 iDir) pos) c u t a k := by
    intro a k
    by_cases hk : k = iDir
    · have hx : ∀ m : Int, 0.5 + pos a k - pos 0 iDir ≠ m := fun m e => hI a (m - 1) (by subst hk; push_cast; norm_num at e ⊢; linarith)
      filter_upwards [floor_eventually _ (del c a * u k - del c 0 * u iDir) hx] with t ht
      simp only [displace_eq, slabWrap, if_pos hk]
      rw [← ht]
      have : 0.5 + (pos a k + t * (del c a * u k)) - (pos 0 iDir + t * (del c 0 * u iDir))
          = 0.5 + pos a k - pos 0 iDir + t * (del c a * u k - del c 0 * u iDir) := by ring
      rw [this]; ring
    · have hx : ∀ m : Int, 0.5 + pos a k - 0 ≠ m := fun m e => hO a k hk (m - 1) (by push_cast; norm_num at e ⊢; linarith)
      filter_upwards [floor_eventually _ (del c a * u k) hx] with t ht
      simp only [displace_eq, slabWrap, if_neg hk]
      rw [← ht]
      have : 0.5 + (pos a k + t * (del c a * u k)) - 0 = 0.5 + pos a k - 0 + t * (del c a * u k) := by ring
      rw [this]; ring
  have := eventually_all.2 fun a => eventually_all.2 (this a)
  filter_upwards [this] with t ht
  funext a k; exact ht a k

/-- Where the slab sum is accepted, it is accepted for all small displacements, and the force it adds to an atom is minus the
derivative of the energy with respect to the position of this atom. Excluded are atoms exactly on the surface of the unit cell
in the periodic directions and pairs exactly at the threshold beyond which a term is dropped. -/
theorem C70_slab_forces (p : Params) (hs : 0 < p.sigma) (hR : det p.R ≠ 0) (iDir : Fin 3) (ionMargin : ℝ) (hM : 0 ≤ ionMargin)
    {n : Nat} (Z : Fin (n + 1) → ℝ) (pos : Fin (n + 1) → V3 ℝ) (hA : Apart pos)
    (hO : ∀ a k, k ≠ iDir → ∀ m : Int, pos a k ≠ m + 1 / 2)
    (h100 : ∀ i1 i2, ∀ iG ∈ cells p.Nrecip, |Real.sqrt (Gsq p iG) * (slabL p iDir *
      (slabWrap iDir (pos 0 iDir) pos i1 iDir - slabWrap iDir (pos 0 iDir) pos i2 iDir))| ≠ 100)
    (out : Out (n + 1)) (hok : slab p iDir ionMargin Z pos = .ok out) (c : Fin (n + 1)) (u : V3 ℝ) :
    ∃ E : ℝ → ℝ, (∀ᶠ t in 𝓝 0, ∃ o, slab p iDir ionMargin Z (displace pos c u t) = .ok o ∧ o.E = E t) ∧
      HasDerivAt E (-dot (out.force c) u) 0 := by
  by_cases hz : ∑ a, Z a * Z a = 0
  · simp only [slab, if_pos hz, Except.ok.injEq] at hok
    subst hok
    refine ⟨fun _ => 0, Eventually.of_forall fun t => ⟨{ E := 0, force := 0, stress := 0 }, by simp only [slab, if_pos hz], rfl⟩, ?_⟩
    exact (hasDerivAt_const _ _).congr_deriv (by simp [dot])
  · have hin := slab_ok p iDir ionMargin Z pos hz out hok
    let q := slabWrap iDir (pos 0 iDir) pos
    let L := slabL p iDir
    have hL : 0 < L := by
      have := hin 0 0
      simp only [sub_self, mul_zero, abs_zero] at this
      have : 0 < 0.5 * L := by linarith
      linarith
    have hI : ∀ a, ∀ m : Int, pos a iDir - pos 0 iDir ≠ m + 1 / 2 := by
      intro a m hm
      have := hin a 0
      have f1 : ⌊(0.5 : ℝ) + pos 0 iDir - pos 0 iDir⌋ = 0 := by rw [add_sub_cancel_right, Int.floor_eq_iff]; norm_num
      have f2 : ⌊(0.5 : ℝ) + pos a iDir - pos 0 iDir⌋ = m + 1 := by
        rw [Int.floor_eq_iff]; push_cast
        have : (0.5 : ℝ) + pos a iDir - pos 0 iDir = m + 1 := by norm_num at hm ⊢; linarith
        rw [this]; constructor <;> linarith
      have e : slabWrap iDir (pos 0 iDir) pos a iDir - slabWrap iDir (pos 0 iDir) pos 0 iDir = -(1 / 2) := by
        simp only [slabWrap, if_true, f1, f2]; push_cast; linarith
      rw [e, abs_lt] at this
      have hl : L = slabL p iDir := rfl
      rw [← hl] at this
      norm_num at this
      linarith
    have hW := slabWrap_displace iDir pos c u hO hI
    have hA' : Apart q := apart_wrap pos (fun a k => ⌊0.5 + pos a k - (if k = iDir then pos 0 iDir else 0)⌋) hA
    let r := fun (i1 i2 : Fin (n + 1)) (k : Fin 3) => q i1 k - q i2 k
    let E : ℝ → ℝ := fun t => -0.5 * (∑ a, Z a * Z a) * eta p * (2 / Real.sqrt Real.pi)
      + (∑ a2, ∑ a1, ∑ iR ∈ cells p.Nreal, realE p (Z a1) (Z a2) (sep iR (displace q c u t a1) (displace q c u t a2)))
      + ∑ i1, ∑ i2, if i2 ≤ i1 then ∑ iG ∈ cells p.Nrecip, slabE p iDir (prefac p iDir Z i1 i2)
          (fun k => displace q c u t i1 k - displace q c u t i2 k) iG else 0
    refine ⟨E, ?_, ?_⟩
    · have hc : ∀ i1 i2, ∀ᶠ t in 𝓝 (0 : ℝ), |L * (displace q c u t i1 iDir - displace q c u t i2 iDir)| < 0.5 * L - ionMargin := by
        intro i1 i2
        have hcont : ContinuousAt (fun t : ℝ => |L * (displace q c u t i1 iDir - displace q c u t i2 iDir)|) 0 := by
          simp only [displace_eq]; fun_prop
        refine hcont.eventually (gt_mem_nhds ?_)
        show |L * (displace q c u 0 i1 iDir - displace q c u 0 i2 iDir)| < _
        rw [displace_zero]; exact hin i1 i2
      have hc' := eventually_all.2 fun i1 => eventually_all.2 (hc i1)
      filter_upwards [hW, hc'] with t ht hct
      simp only [slab, if_neg hz]
      have ht0 : slabWrap iDir (displace pos c u t 0 iDir) (displace pos c u t) = displace q c u t := ht
      rw [ht0, if_neg]
      · exact ⟨_, rfl, rfl⟩
      · push Not
        intro i1 i2 _
        exact hct i1 i2
    · have h1 := real_sum_deriv p hR Z q hA' c u
      have hpair : ∀ i1 i2, HasDerivAt (fun t => if i2 ≤ i1 then ∑ iG ∈ cells p.Nrecip, slabE p iDir (prefac p iDir Z i1 i2)
          (fun k => displace q c u t i1 k - displace q c u t i2 k) iG else 0)
          (if i2 ≤ i1 then (del c i1 - del c i2) * dot (fun k => ∑ iG ∈ cells p.Nrecip, slabG p iDir (prefac p iDir Z i1 i2) (r i1 i2) iG k) u else 0) 0 := by
        intro i1 i2
        split
        · have hd := HasDerivAt.fun_sum fun iG (hG : iG ∈ cells p.Nrecip) =>
            slab_term_deriv p hs iDir (prefac p iDir Z i1 i2) (r i1 i2) (fun k => (del c i1 - del c i2) * u k) iG (h100 i1 i2 iG hG)
          have e : ∀ t, (fun k => displace q c u t i1 k - displace q c u t i2 k) = fun k => r i1 i2 k + t * ((del c i1 - del c i2) * u k) := by
            intro t; funext k; simp only [displace_eq, r]; ring
          simp only [e]
          refine hd.congr_deriv ?_
          rw [← dot_sum, Finset.mul_sum]
          refine Finset.sum_congr rfl fun iG _ => ?_
          simp only [dot]; ring
        · exact hasDerivAt_const _ _
      have h2 := HasDerivAt.fun_sum fun i1 (_ : i1 ∈ (Finset.univ : Finset (Fin (n + 1)))) =>
        HasDerivAt.fun_sum fun i2 (_ : i2 ∈ (Finset.univ : Finset (Fin (n + 1)))) => hpair i1 i2
      refine ((h1.const_add _).add h2).congr_deriv ?_
      simp only [slab, if_neg hz] at hok
      split at hok
      · exact absurd hok (by simp)
      · simp only [Except.ok.injEq] at hok
        rw [← hok]
        simp only
        rw [dot_add, neg_add]
        congr 1
        let g := fun (i1 i2 : Fin (n + 1)) (k : Fin 3) => ∑ iG ∈ cells p.Nrecip, slabG p iDir (prefac p iDir Z i1 i2) (r i1 i2) iG k
        have e1 : dot (fun k => ∑ i1, ∑ i2, if i2 ≤ i1 then (if c = i1 then -g i1 i2 k else 0) + (if c = i2 then g i1 i2 k else 0) else 0) u
            = ∑ i1, ∑ i2, if i2 ≤ i1 then -(del c i1 - del c i2) * dot (g i1 i2) u else 0 := by
          rw [← dot_sum]
          refine Finset.sum_congr rfl fun i1 _ => ?_
          rw [← dot_sum]
          refine Finset.sum_congr rfl fun i2 _ => ?_
          simp only [del, eq_comm (a := c)]
          split
          · split <;> split <;> simp [dot] <;> ring
          · simp [dot]
        show _ = -dot (fun k => ∑ i1, ∑ i2, if i2 ≤ i1 then (if c = i1 then -g i1 i2 k else 0) + (if c = i2 then g i1 i2 k else 0) else 0) u
        rw [e1, ← Finset.sum_neg_distrib]
        refine Finset.sum_congr rfl fun i1 _ => ?_
        rw [← Finset.sum_neg_distrib]
        refine Finset.sum_congr rfl fun i2 _ => ?_
        split
        · simp only [g]; ring
        · simp

/-- The forces of the slab sum add up to zero. -/
theorem C70_slab_momentum (p : Params) (iDir : Fin 3) (ionMargin : ℝ) {n : Nat} (Z : Fin (n + 1) → ℝ) (pos : Fin (n + 1) → V3 ℝ)
    (out : Out (n + 1)) (hok : slab p iDir ionMargin Z pos = .ok out) (k : Fin 3) : ∑ a, out.force a k = 0 := by
  by_cases hz : ∑ a, Z a * Z a = 0
  · simp only [slab, if_pos hz, Except.ok.injEq] at hok
    subst hok; simp
  · simp only [slab, if_neg hz] at hok
    split at hok
    · exact absurd hok (by simp)
    · simp only [Except.ok.injEq] at hok
      rw [← hok]
      simp only
      rw [Finset.sum_add_distrib]
      have h1 := realForce_total p Z (slabWrap iDir (pos 0 iDir) pos) k
      simp only [realForce] at h1
      rw [h1, zero_add, Finset.sum_comm]
      refine Finset.sum_eq_zero fun i1 _ => ?_
      rw [Finset.sum_comm]
      refine Finset.sum_eq_zero fun i2 _ => ?_
      split
      · rw [Finset.sum_add_distrib, Finset.sum_ite_eq' Finset.univ i1, Finset.sum_ite_eq' Finset.univ i2]
        simp
      · simp

theorem salt_lenSq (x : V3 ℝ) : WS.lenSq salt.R x = 100 * (x 0 ^ 2 + x 1 ^ 2 + x 2 ^ 2) := by
  simp [WS.lenSq, dot, mulMV, salt, diag, vec]; ring

theorem salt_L : slabL salt 2 = 10 := by
  have : RTR salt 2 2 = 10 ^ 2 := by simp [RTR, mulMM, transpose, salt, diag, vec]; norm_num
  rw [slabL, this, Real.sqrt_sq (by norm_num)]

theorem saltWrap (a : Fin 2) (k : Fin 3) : slabWrap 2 (saltPos 0 2) saltPos a k = saltPos a k := by
  simp only [slabWrap]
  have : ⌊0.5 + saltPos a k - (if k = 2 then saltPos 0 2 else 0)⌋ = 0 := by
    rw [Int.floor_eq_iff]
    match a with
    | 0 => simp [saltPos]; norm_num
    | 1 => simp [saltPos]; norm_num
  rw [this]; simp

theorem salt_z (i1 i2 : Fin 2) : |(10 : ℝ) * (saltPos i1 2 - saltPos i2 2)| ≤ 5 / 2 := by
  match i1, i2 with
  | 0, 0 => simp [saltPos]; norm_num
  | 1, 1 => simp [saltPos]; norm_num
  | 0, 1 => simp [saltPos]; norm_num
  | 1, 0 => simp [saltPos]; norm_num [abs_of_pos]

theorem salt_G (iG : Fin 3 → Int) (h : iG ∈ cells salt.Nrecip) : Real.sqrt (Gsq salt iG) ≤ 6 := by
  have hg : ∀ k, |gcart salt.R iG k| ≤ 3 := by
    intro k
    have := congrFun (gcart_R salt.R salt_det iG) k
    have e : mulVM (gcart salt.R iG) salt.R k = 10 * gcart salt.R iG k := by
      match k with
      | 0 => simp [mulVM, salt, diag, vec]; ring
      | 1 => simp [mulVM, salt, diag, vec]; ring
      | 2 => simp [mulVM, salt, diag, vec]; ring
    rw [e] at this
    have hk := Finset.mem_Icc.1 ((Fintype.mem_piFinset.1 h) k)
    simp only [salt] at hk
    have h1 : ((-3 : Int) : ℝ) ≤ (iG k : ℝ) := by exact_mod_cast hk.1
    have h2 : (iG k : ℝ) ≤ ((3 : Int) : ℝ) := by exact_mod_cast hk.2
    push_cast at h1 h2
    have hp := Real.pi_lt_four
    have hp0 := Real.pi_pos
    simp only [toR] at this
    rw [abs_le]
    constructor <;> nlinarith
  rw [Real.sqrt_le_left (by norm_num), Gsq_eq]
  have h0 := sq_le_sq' (abs_le.1 (hg 0)).1 (abs_le.1 (hg 0)).2
  have h1 := sq_le_sq' (abs_le.1 (hg 1)).1 (abs_le.1 (hg 1)).2
  have h2 := sq_le_sq' (abs_le.1 (hg 2)).1 (abs_le.1 (hg 2)).2
  simp only [dot]; nlinarith

-- The hypotheses of the slab theorem for the two ions, 2.5 bohrs apart along the truncated direction of length 10.
example : 0 < salt.sigma ∧ (∀ a k, k ≠ (2 : Fin 3) → ∀ m : Int, saltPos a k ≠ m + 1 / 2) ∧
    (∀ i1 i2, ∀ iG ∈ cells salt.Nrecip, |Real.sqrt (Gsq salt iG) * (slabL salt 2 *
      (slabWrap 2 (saltPos 0 2) saltPos i1 2 - slabWrap 2 (saltPos 0 2) saltPos i2 2))| ≠ 100) ∧
    ∃ out, slab salt 2 1 ![1, -1] saltPos = .ok out := by
  refine ⟨by simp [salt], fun a k _ m => saltPos_ok.2 a k m, ?_, ?_⟩
  · intro i1 i2 iG hG
    rw [saltWrap, saltWrap, salt_L, abs_mul, abs_of_nonneg (Real.sqrt_nonneg _)]
    have := mul_le_mul (salt_G iG hG) (salt_z i1 i2) (abs_nonneg _) (by norm_num)
    intro h; rw [h] at this; norm_num at this
  · simp only [slab]
    rw [if_neg (by simp), if_neg]
    · exact ⟨_, rfl⟩
    · push Not
      intro i1 i2 _
      rw [saltWrap, saltWrap, salt_L]
      exact lt_of_le_of_lt (salt_z i1 i2) (by norm_num)

/-- Where the slab sum is accepted, it is accepted for all small strains, and the matrix it returns is the derivative of the
energy with respect to strain of the lattice, at fixed lattice coordinates, Gaussian width and numbers of cells. -/
theorem C70_slab_stress (p : Params) (hs : 0 < p.sigma) (hR : det p.R ≠ 0) (iDir : Fin 3) (ionMargin : ℝ) (hM : 0 ≤ ionMargin)
    {n : Nat} (Z : Fin (n + 1) → ℝ) (pos : Fin (n + 1) → V3 ℝ)
    (h100 : ∀ i1 i2, ∀ iG ∈ cells p.Nrecip, |Real.sqrt (Gsq p iG) * (slabL p iDir *
      (slabWrap iDir (pos 0 iDir) pos i1 iDir - slabWrap iDir (pos 0 iDir) pos i2 iDir))| ≠ 100)
    (out : Out (n + 1)) (hok : slab p iDir ionMargin Z pos = .ok out) (e : Mat ℝ) :
    ∃ E : ℝ → ℝ, (∀ᶠ t in 𝓝 0, ∃ o, slab { p with R := strained p.R e t } iDir ionMargin Z pos = .ok o ∧ o.E = E t) ∧
      HasDerivAt E (contract out.stress e) 0 := by
  by_cases hz : ∑ a, Z a * Z a = 0
  · simp only [slab, if_pos hz, Except.ok.injEq] at hok
    subst hok
    refine ⟨fun _ => 0, Eventually.of_forall fun t => ⟨{ E := 0, force := 0, stress := 0 }, by simp only [slab, if_pos hz], rfl⟩, ?_⟩
    exact (hasDerivAt_const _ _).congr_deriv (by simp [contract_eq])
  · have hin := slab_ok p iDir ionMargin Z pos hz out hok
    let q := slabWrap iDir (pos 0 iDir) pos
    have hL : 0 < slabL p iDir := by
      have := hin 0 0
      simp only [sub_self, mul_zero, abs_zero] at this
      have : 0 < 0.5 * slabL p iDir := by linarith
      linarith
    let r := fun (i1 i2 : Fin (n + 1)) (k : Fin 3) => q i1 k - q i2 k
    let w := fun (i1 i2 : Fin (n + 1)) => Z i1 * Z i2 * (if i1 = i2 then 1 else 2)
    have hw : ∀ (p' : Params) i1 i2, prefac p' iDir Z i1 i2 = volPrefac p' iDir * w i1 i2 := by
      intro p' i1 i2; simp only [prefac, w]; ring
    let E : ℝ → ℝ := fun t => -0.5 * (∑ a, Z a * Z a) * eta p * (2 / Real.sqrt Real.pi)
      + (∑ a2, ∑ a1, ∑ iR ∈ cells p.Nreal, realE (strainP p e t) (Z a1) (Z a2) (sep iR (q a1) (q a2)))
      + ∑ i1, ∑ i2, if i2 ≤ i1 then ∑ iG ∈ cells p.Nrecip, slabE (strainP p e t) iDir (volPrefac (strainP p e t) iDir * w i1 i2)
          (r i1 i2) iG else 0
    have hLd := slabL_deriv p iDir hL e
    refine ⟨E, ?_, ?_⟩
    · have hc : ∀ i1 i2, ∀ᶠ t in 𝓝 (0 : ℝ), |slabL (strainP p e t) iDir * r i1 i2 iDir| - (0.5 * slabL (strainP p e t) iDir - ionMargin) < 0 := by
        intro i1 i2
        have hcont : ContinuousAt (fun t : ℝ => |slabL (strainP p e t) iDir * r i1 i2 iDir| - (0.5 * slabL (strainP p e t) iDir - ionMargin)) 0 :=
          ((hLd.continuousAt.mul continuousAt_const).abs).sub ((continuousAt_const.mul hLd.continuousAt).sub continuousAt_const)
        refine hcont.eventually (gt_mem_nhds ?_)
        show |slabL (strainP p e 0) iDir * r i1 i2 iDir| - (0.5 * slabL (strainP p e 0) iDir - ionMargin) < 0
        rw [strainP_zero]
        have := hin i1 i2
        simp only [r, q]; linarith
      filter_upwards [eventually_all.2 fun i1 => eventually_all.2 (hc i1)] with t hct
      simp only [slab, if_neg hz]
      rw [if_neg]
      · refine ⟨_, rfl, ?_⟩
        simp only [E, hw]
        rfl
      · push Not
        intro i1 i2 _
        have := hct i1 i2
        simp only [r, q] at this
        show |slabL (strainP p e t) iDir * _| < 0.5 * slabL (strainP p e t) iDir - ionMargin
        linarith
    · have h1 := HasDerivAt.fun_sum fun a2 (_ : a2 ∈ (Finset.univ : Finset (Fin (n + 1)))) =>
        HasDerivAt.fun_sum fun a1 (_ : a1 ∈ (Finset.univ : Finset (Fin (n + 1)))) =>
          HasDerivAt.fun_sum fun iR (_ : iR ∈ cells p.Nreal) => real_strain_deriv p hR (Z a1) (Z a2) (sep iR (q a1) (q a2)) e
      let zz := contract (outer (zHat p iDir) (zHat p iDir)) e
      let V := volPrefac p iDir
      have hpair : ∀ i1 i2, HasDerivAt (fun t => if i2 ≤ i1 then ∑ iG ∈ cells p.Nrecip, slabE (strainP p e t) iDir
            (volPrefac (strainP p e t) iDir * w i1 i2) (r i1 i2) iG else 0)
          (if i2 ≤ i1 then ∑ iG ∈ cells p.Nrecip, (slabSG p iDir (V * w i1 i2) (r i1 i2) iG * contract (outer (gcart p.R iG) (gcart p.R iG)) e
            + slabSz p iDir (V * w i1 i2) (r i1 i2) iG * zz + slabE p iDir (V * w i1 i2) (r i1 i2) iG * (zz - trace e)) else 0) 0 := by
        intro i1 i2
        split
        · exact HasDerivAt.fun_sum fun iG hG => slab_strain_deriv p hs hR iDir hL (w i1 i2) (r i1 i2) iG e (h100 i1 i2 iG hG)
        · exact hasDerivAt_const _ _
      have h2 := HasDerivAt.fun_sum fun i1 (_ : i1 ∈ (Finset.univ : Finset (Fin (n + 1)))) =>
        HasDerivAt.fun_sum fun i2 (_ : i2 ∈ (Finset.univ : Finset (Fin (n + 1)))) => hpair i1 i2
      refine ((h1.const_add _).add h2).congr_deriv ?_
      simp only [slab, if_neg hz] at hok
      split at hok
      · exact absurd hok (by simp)
      · simp only [Except.ok.injEq] at hok
        rw [← hok]
        simp only [hw]
        have hadd : ∀ A B : Mat ℝ, ∀ c : ℝ, contract (fun i j => A i j + B i j + c * outer (zHat p iDir) (zHat p iDir) i j) e
            = contract A e + contract B e + c * zz := by
          intro A B c; simp only [contract_eq, zz]; ring
        rw [hadd, add_assoc]
        congr 1
        · simp only [contract_sum]; rfl
        · rw [← contract_sum, Finset.sum_mul, ← Finset.sum_add_distrib]
          refine Finset.sum_congr rfl fun i1 _ => ?_
          rw [← contract_sum, Finset.sum_mul, ← Finset.sum_add_distrib]
          refine Finset.sum_congr rfl fun i2 _ => ?_
          by_cases hi : i2 ≤ i1
          · simp only [if_pos hi]
            have hsub : ∀ A : Mat ℝ, ∀ c : ℝ, contract (fun i j => A i j - c * diag 1 1 1 i j) e = contract A e - c * trace e := by
              intro A c; simp [contract_eq, trace, diag, vec]; ring
            rw [hsub, ← contract_sum]
            have hmul : ∀ iG, contract (fun a b => slabSG p iDir (volPrefac p iDir * w i1 i2) (fun k => slabWrap iDir (pos 0 iDir) pos i1 k - slabWrap iDir (pos 0 iDir) pos i2 k) iG
                * outer (mulVM (toR iG) (Basis.G p.R)) (mulVM (toR iG) (Basis.G p.R)) a b) e
                = slabSG p iDir (V * w i1 i2) (r i1 i2) iG * contract (outer (gcart p.R iG) (gcart p.R iG)) e := by
              intro iG; simp only [contract_eq, V, r, q, gcart]; ring
            simp only [hmul]
            rw [Finset.sum_add_distrib, Finset.sum_add_distrib, ← Finset.sum_mul, ← Finset.sum_mul]
            simp only [V, r, q]
            ring
          · simp [if_neg hi, contract_eq]

/-! ## Isolated -/

/-- Where the sum for isolated systems is accepted, it is accepted for all small displacements, and its force is minus the
derivative of its energy, provided that the reduction to the Wigner-Seitz cell follows small displacements and the distance to
the boundary is continuous. -/
theorem C70_isolated_forces_partial (p : Params) (reduce : V3 ℝ → V3 ℝ) (bd : V3 ℝ → ℝ) (ionMargin Rc : ℝ)
    {n : Nat} (Z : Fin (n + 1) → ℝ) (pos : Fin (n + 1) → V3 ℝ)
    (hred : ∀ a (w : V3 ℝ), ∀ᶠ t in 𝓝 (0 : ℝ), reduce (fun k => pos a k - pos 0 k + t * w k)
      = fun k => reduce (fun k => pos a k - pos 0 k) k + t * w k)
    (hbd : Continuous bd)
    (out : Out (n + 1)) (hok : isolated p reduce bd ionMargin Rc Z pos = .ok out) (c : Fin (n + 1)) (u : V3 ℝ) :
    ∃ E : ℝ → ℝ, (∀ᶠ t in 𝓝 0, ∃ o, isolated p reduce bd ionMargin Rc Z (displace pos c u t) = .ok o ∧ o.E = E t) ∧
      HasDerivAt E (-dot (out.force c) u) 0 := by
  let q : Fin (n + 1) → V3 ℝ := fun a k => pos 0 k + reduce (fun k => pos a k - pos 0 k) k
  have hq : ∀ᶠ t in 𝓝 (0 : ℝ), (fun a k => displace pos c u t 0 k + reduce (fun k => displace pos c u t a k - displace pos c u t 0 k) k)
      = displace q c u t := by
    have : ∀ a, ∀ᶠ t in 𝓝 (0 : ℝ), (fun k => displace pos c u t 0 k + reduce (fun k => displace pos c u t a k - displace pos c u t 0 k) k)
        = displace q c u t a := by
      intro a
      filter_upwards [hred a fun k => (del c a - del c 0) * u k] with t ht
      funext k
      have e : (fun k => displace pos c u t a k - displace pos c u t 0 k) = fun k => pos a k - pos 0 k + t * ((del c a - del c 0) * u k) := by
        funext k; simp only [displace_eq]; ring
      rw [e, ht]
      simp only [displace_eq, q]; ring
    filter_upwards [eventually_all.2 this] with t ht
    funext a; exact ht a
  simp only [isolated] at hok
  split at hok
  · exact absurd hok (by simp)
  split at hok
  · exact absurd hok (by simp)
  next hfar hzero =>
  simp only [Except.ok.injEq] at hok
  push Not at hfar hzero
  let x := fun (i j : Fin (n + 1)) (k : Fin 3) => q i k - q j k
  let X := fun (t : ℝ) (i j : Fin (n + 1)) (k : Fin 3) => displace q c u t i k - displace q c u t j k
  have hX : ∀ t i j, X t i j = fun k => x i j k - (-(t * (del c i - del c j))) * u k := by
    intro t i j; funext k; simp only [X, x, displace_eq]; ring
  have hX0 : ∀ i j, X 0 i j = x i j := by intro i j; rw [hX]; funext k; ring
  have hpos : ∀ i j, j < i → 0 < WS.lenSq p.R (x i j) := by
    intro i j hji
    have := hzero i j hji
    rw [RTR_eq, WS.metric_lenSq] at this
    exact lt_of_le_of_ne (WS.lenSq_nonneg _ _) (Ne.symm this)
  have hd : ∀ i j, HasDerivAt (fun t => WS.lenSq p.R (X t i j)) (2 * (del c i - del c j) * WS.ip p.R (x i j) u) 0 := by
    intro i j
    have e : (fun t => WS.lenSq p.R (X t i j)) = fun t => WS.lenSq p.R (x i j) + t * (2 * (del c i - del c j) * WS.ip p.R (x i j) u)
        + t ^ 2 * ((del c i - del c j) ^ 2 * WS.lenSq p.R u) := by
      funext t; rw [hX, WS.lenSq_sub]; simp only [WS.ip, dot]; ring
    rw [e]
    have := (((hasDerivAt_id (0 : ℝ)).mul_const (2 * (del c i - del c j) * WS.ip p.R (x i j) u)).const_add (WS.lenSq p.R (x i j))).add
      (((hasDerivAt_id (0 : ℝ)).pow 2).mul_const ((del c i - del c j) ^ 2 * WS.lenSq p.R u))
    exact this.congr_deriv (by simp)
  refine ⟨fun t => ∑ i, ∑ j, if j < i then Z i * Z j / Real.sqrt (WS.lenSq p.R (X t i j)) else 0, ?_, ?_⟩
  · have h1 : ∀ i j, ∀ᶠ t in 𝓝 (0 : ℝ), j < i → ¬ tooFar p bd ionMargin Rc (X t i j) := by
      intro i j
      by_cases hji : j < i
      · have hn : ¬ tooFar p bd ionMargin Rc (x i j) := hfar i j hji
        unfold tooFar at hn ⊢
        by_cases hRc : Rc ≠ 0
        · simp only [if_pos hRc] at hn ⊢
          rw [RTR_eq, WS.metric_lenSq] at hn
          have hcont : ContinuousAt (fun t => Real.sqrt (WS.lenSq p.R (X t i j))) 0 := (hd i j).continuousAt.sqrt
          have := hcont.eventually (gt_mem_nhds (show Real.sqrt (WS.lenSq p.R (X 0 i j)) < Rc - ionMargin by rw [hX0]; exact not_le.1 hn))
          filter_upwards [this] with t ht _
          rw [RTR_eq, WS.metric_lenSq]; exact not_le.2 ht
        · simp only [if_neg hRc] at hn ⊢
          have hcont : ContinuousAt (fun t : ℝ => bd (X t i j)) 0 := by
            refine hbd.continuousAt.comp ?_
            refine continuousAt_pi.2 fun k => ?_
            simp only [X, displace_eq]; fun_prop
          have := hcont.eventually (lt_mem_nhds (show ionMargin < bd (X 0 i j) by rw [hX0]; exact not_le.1 hn))
          filter_upwards [this] with t ht _
          exact not_le.2 ht
      · exact Eventually.of_forall fun t h => absurd h hji
    have h2 : ∀ i j, ∀ᶠ t in 𝓝 (0 : ℝ), j < i → WS.lenSq p.R (X t i j) ≠ 0 := by
      intro i j
      by_cases hji : j < i
      · have := (hd i j).continuousAt.eventually_ne (show WS.lenSq p.R (X 0 i j) ≠ 0 by rw [hX0]; exact (hpos i j hji).ne')
        filter_upwards [this] with t ht _
        exact ht
      · exact Eventually.of_forall fun t h => absurd h hji
    filter_upwards [hq, eventually_all.2 fun i => eventually_all.2 (h1 i), eventually_all.2 fun i => eventually_all.2 (h2 i)] with t ht k1 k2
    simp only [isolated]
    have ht' : ∀ a k, displace pos c u t 0 k + reduce (fun k => displace pos c u t a k - displace pos c u t 0 k) k = displace q c u t a k :=
      fun a k => congrFun (congrFun ht a) k
    simp only [ht', RTR_eq, WS.metric_lenSq]
    rw [if_neg, if_neg]
    · exact ⟨_, rfl, rfl⟩
    · push Not; exact fun i j hji => k2 i j hji
    · push Not
      intro i j hji
      have e : (fun k => displace pos c u t 0 k + reduce (fun k => displace pos c u t i k - displace pos c u t 0 k) k -
          (displace pos c u t 0 k + reduce (fun k => displace pos c u t j k - displace pos c u t 0 k) k)) = X t i j := by
        funext k; rw [ht', ht']
      rw [e]; exact k1 i j hji
  · let D := fun i j => (del c i - del c j) * (-(WS.ip p.R (x i j) u * (Z i * Z j / Real.sqrt (WS.lenSq p.R (x i j)) / WS.lenSq p.R (x i j))))
    have hp : ∀ i j, HasDerivAt (fun t => if j < i then Z i * Z j / Real.sqrt (WS.lenSq p.R (X t i j)) else 0) (if j < i then D i j else 0) 0 := by
      intro i j
      by_cases hji : j < i
      · simp only [if_pos hji]
        have hp0 := hpos i j hji
        have hs := (hd i j).sqrt (by rw [hX0]; exact hp0.ne')
        have := (hasDerivAt_const (0 : ℝ) (Z i * Z j)).div hs (by rw [hX0]; exact (Real.sqrt_pos.2 hp0).ne')
        refine this.congr_deriv ?_
        simp only [D, hX0]
        generalize WS.ip p.R (x i j) u = I
        have e2 : WS.lenSq p.R (x i j) = Real.sqrt (WS.lenSq p.R (x i j)) ^ 2 := (Real.sq_sqrt hp0.le).symm
        have hr := Real.sqrt_pos.2 hp0
        generalize Real.sqrt (WS.lenSq p.R (x i j)) = r at *
        rw [e2]
        have := hr.ne'
        field_simp
        ring
      · simp only [if_neg hji]; exact hasDerivAt_const _ _
    refine (HasDerivAt.fun_sum fun i (_ : i ∈ (Finset.univ : Finset (Fin (n + 1)))) =>
      HasDerivAt.fun_sum fun j (_ : j ∈ (Finset.univ : Finset (Fin (n + 1)))) => hp i j).congr_deriv ?_
    rw [← hok]
    simp only
    rw [← dot_sum, ← Finset.sum_neg_distrib]
    refine Finset.sum_congr rfl fun i _ => ?_
    rw [← dot_sum, ← Finset.sum_neg_distrib]
    refine Finset.sum_congr rfl fun j _ => ?_
    by_cases hji : j < i
    · simp only [if_pos hji, RTR_eq, WS.metric_lenSq, D]
      rw [← WS.rtr_dot]
      simp only [del, eq_comm (a := c)]
      show _ = -dot (fun k => (if i = c then mulMV (WS.RTR p.R) (x i j) k * _ else 0) + (if j = c then -(mulMV (WS.RTR p.R) (x i j) k * _) else 0)) u
      split <;> split <;> simp [dot, x, q] <;> ring
    · simp [if_neg hji, dot]

/-- The forces of the sum for isolated systems add up to zero. -/
theorem C70_isolated_momentum (p : Params) (reduce : V3 ℝ → V3 ℝ) (bd : V3 ℝ → ℝ) (ionMargin Rc : ℝ)
    {n : Nat} (Z : Fin (n + 1) → ℝ) (pos : Fin (n + 1) → V3 ℝ) (out : Out (n + 1))
    (hok : isolated p reduce bd ionMargin Rc Z pos = .ok out) (k : Fin 3) : ∑ a, out.force a k = 0 := by
  simp only [isolated] at hok
  split at hok
  · exact absurd hok (by simp)
  split at hok
  · exact absurd hok (by simp)
  simp only [Except.ok.injEq] at hok
  rw [← hok]
  simp only
  rw [Finset.sum_comm]
  refine Finset.sum_eq_zero fun i _ => ?_
  rw [Finset.sum_comm]
  refine Finset.sum_eq_zero fun j _ => ?_
  split
  · rw [Finset.sum_add_distrib, Finset.sum_ite_eq' Finset.univ i, Finset.sum_ite_eq' Finset.univ j]
    simp
  · simp

/-- The matrix returned by the sum for isolated systems is the derivative of its energy with respect to strain, at fixed lattice
coordinates and for reductions that do not change with the strain. -/
theorem C70_isolated_stress_partial (p : Params) (reduce : V3 ℝ → V3 ℝ) (bd : V3 ℝ → ℝ) (ionMargin Rc : ℝ)
    {n : Nat} (Z : Fin (n + 1) → ℝ) (pos : Fin (n + 1) → V3 ℝ) (out : Out (n + 1))
    (hok : isolated p reduce bd ionMargin Rc Z pos = .ok out) (e : Mat ℝ) :
    ∃ E : ℝ → ℝ, (∀ᶠ t in 𝓝 0, ∃ o, isolated { p with R := strained p.R e t } reduce bd ionMargin Rc Z pos = .ok o ∧ o.E = E t) ∧
      HasDerivAt E (contract out.stress e) 0 := by
  simp only [isolated] at hok
  split at hok
  · exact absurd hok (by simp)
  split at hok
  · exact absurd hok (by simp)
  next hfar hzero =>
  simp only [Except.ok.injEq] at hok
  push Not at hfar hzero
  let q : Fin (n + 1) → V3 ℝ := fun a k => pos 0 k + reduce (fun k => pos a k - pos 0 k) k
  let x := fun (i j : Fin (n + 1)) (k : Fin 3) => q i k - q j k
  have hpos : ∀ i j, j < i → 0 < WS.lenSq p.R (x i j) := by
    intro i j hji
    have := hzero i j hji
    rw [RTR_eq, WS.metric_lenSq] at this
    exact lt_of_le_of_ne (WS.lenSq_nonneg _ _) (Ne.symm this)
  let r := fun i j => mulMV p.R (x i j)
  have hd : ∀ i j, HasDerivAt (fun t => WS.lenSq (strained p.R e t) (x i j)) (2 * dot (r i j) (mulMV e (r i j))) 0 := by
    intro i j
    have he : (fun t => WS.lenSq (strained p.R e t) (x i j)) = fun t => WS.lenSq p.R (x i j) + t * (2 * dot (r i j) (mulMV e (r i j)))
        + t ^ 2 * dot (mulMV e (r i j)) (mulMV e (r i j)) := by
      funext t; simp only [WS.lenSq, strained, dot, mulMV, r]; ring
    rw [he]
    have h := hasDerivAt_id (0 : ℝ)
    exact (((h.mul_const _).const_add _).add ((h.pow 2).mul_const _)).congr_deriv (by simp)
  refine ⟨fun t => ∑ i, ∑ j, if j < i then Z i * Z j / Real.sqrt (WS.lenSq (strained p.R e t) (x i j)) else 0, ?_, ?_⟩
  · have h1 : ∀ i j, ∀ᶠ t in 𝓝 (0 : ℝ), j < i → ¬ tooFar { p with R := strained p.R e t } bd ionMargin Rc (x i j) := by
      intro i j
      by_cases hji : j < i
      · have hn : ¬ tooFar p bd ionMargin Rc (x i j) := hfar i j hji
        unfold tooFar at hn ⊢
        by_cases hRc : Rc ≠ 0
        · simp only [if_pos hRc] at hn ⊢
          rw [RTR_eq, WS.metric_lenSq] at hn
          have hcont : ContinuousAt (fun t => Real.sqrt (WS.lenSq (strained p.R e t) (x i j))) 0 := (hd i j).continuousAt.sqrt
          have := hcont.eventually (gt_mem_nhds (show Real.sqrt (WS.lenSq (strained p.R e 0) (x i j)) < Rc - ionMargin by
            rw [strained_zero]; exact not_le.1 hn))
          filter_upwards [this] with t ht _
          rw [RTR_eq, WS.metric_lenSq]; exact not_le.2 ht
        · simp only [if_neg hRc] at hn ⊢
          exact Eventually.of_forall fun t _ => hn
      · exact Eventually.of_forall fun t h => absurd h hji
    have h2 : ∀ i j, ∀ᶠ t in 𝓝 (0 : ℝ), j < i → WS.lenSq (strained p.R e t) (x i j) ≠ 0 := by
      intro i j
      by_cases hji : j < i
      · have := (hd i j).continuousAt.eventually_ne (show WS.lenSq (strained p.R e 0) (x i j) ≠ 0 by rw [strained_zero]; exact (hpos i j hji).ne')
        filter_upwards [this] with t ht _
        exact ht
      · exact Eventually.of_forall fun t h => absurd h hji
    filter_upwards [eventually_all.2 fun i => eventually_all.2 (h1 i), eventually_all.2 fun i => eventually_all.2 (h2 i)] with t k1 k2
    simp only [isolated, RTR_eq, WS.metric_lenSq]
    rw [if_neg, if_neg]
    · exact ⟨_, rfl, rfl⟩
    · push Not; exact fun i j hji => k2 i j hji
    · push Not; exact fun i j hji => k1 i j hji
  · let D := fun i j => -(Z i * Z j / Real.sqrt (WS.lenSq p.R (x i j)) / WS.lenSq p.R (x i j)) * dot (r i j) (mulMV e (r i j))
    have hp : ∀ i j, HasDerivAt (fun t => if j < i then Z i * Z j / Real.sqrt (WS.lenSq (strained p.R e t) (x i j)) else 0) (if j < i then D i j else 0) 0 := by
      intro i j
      by_cases hji : j < i
      · simp only [if_pos hji]
        have hp0 := hpos i j hji
        have hs := (hd i j).sqrt (by rw [strained_zero]; exact hp0.ne')
        have := (hasDerivAt_const (0 : ℝ) (Z i * Z j)).div hs (by rw [strained_zero]; exact (Real.sqrt_pos.2 hp0).ne')
        refine this.congr_deriv ?_
        simp only [D, strained_zero]
        generalize dot (r i j) (mulMV e (r i j)) = I
        have e2 : WS.lenSq p.R (x i j) = Real.sqrt (WS.lenSq p.R (x i j)) ^ 2 := (Real.sq_sqrt hp0.le).symm
        have hr := Real.sqrt_pos.2 hp0
        generalize Real.sqrt (WS.lenSq p.R (x i j)) = r at *
        rw [e2]
        have := hr.ne'
        field_simp
        ring
      · simp only [if_neg hji]; exact hasDerivAt_const _ _
    refine (HasDerivAt.fun_sum fun i (_ : i ∈ (Finset.univ : Finset (Fin (n + 1)))) =>
      HasDerivAt.fun_sum fun j (_ : j ∈ (Finset.univ : Finset (Fin (n + 1)))) => hp i j).congr_deriv ?_
    rw [← hok]
    simp only
    rw [← contract_sum]
    refine Finset.sum_congr rfl fun i _ => ?_
    rw [← contract_sum]
    refine Finset.sum_congr rfl fun j _ => ?_
    by_cases hji : j < i
    · simp only [if_pos hji, RTR_eq, WS.metric_lenSq, D]
      show _ = contract (fun a b => -(_ * outer (r i j) (r i j) a b)) e
      simp only [contract_eq, outer, dot]
      generalize WS.lenSq p.R _ = s
      simp only [mulMV, r]; ring
    · simp [if_neg hji, contract_eq]

-- Two ions in a cell so large that the reduction does nothing.
example : (∀ a (w : V3 ℝ), ∀ᶠ t in 𝓝 (0 : ℝ), (fun x => x : V3 ℝ → V3 ℝ) (fun k => saltPos a k - saltPos 0 k + t * w k)
      = fun k => (fun x => x : V3 ℝ → V3 ℝ) (fun k => saltPos a k - saltPos 0 k) k + t * w k) ∧
    ∃ out, isolated salt (fun x => x) (fun _ => 1) 0 0 ![1, -1] saltPos = .ok out := by
  refine ⟨fun a w => Eventually.of_forall fun t => rfl, ?_⟩
  simp only [isolated]
  rw [if_neg, if_neg]
  · exact ⟨_, rfl⟩
  · push Not
    intro i j hji
    match i, j with
    | 0, 0 => exact absurd hji (by simp)
    | 1, 1 => exact absurd hji (by simp)
    | 0, 1 => exact absurd hji (by simp)
    | 1, 0 =>
      rw [RTR_eq, WS.metric_lenSq, salt_lenSq]
      simp [saltPos]; norm_num
  · push Not
    intro i j _
    simp [tooFar]

end
end Jdftx.Ewald
