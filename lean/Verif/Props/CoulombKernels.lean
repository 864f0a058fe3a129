import Verif.Lemmas.CoulombExchange

/-!
# C91: Coulomb and exchange kernels
-/
namespace Jdftx.CoulK
noncomputable section
open M3 Ewald Real Filter Topology

/-- A cubic cell. -/
def cube (a : ℝ) : Mat ℝ := diag a a a

theorem cube_det (a : ℝ) : det (cube a) = a ^ 3 := by
  simp [det, box, dot, cross, row, vec, cube, diag]; ring

theorem cube_perp (a : ℝ) (i : Fin 3) : Perp (cube a) i := by
  intro j hj
  match i, j with
  | 0, 0 => exact absurd rfl hj
  | 1, 1 => exact absurd rfl hj
  | 2, 2 => exact absurd rfl hj
  | 0, 1 | 0, 2 | 1, 0 | 1, 2 | 2, 0 | 2, 1 => simp [dot, column, vec, cube, diag]

/-! ### Values -/

/-- The periodic kernel solves the Poisson equation for every wave vector but zero, where it is zero. -/
theorem C91_periodic (R : Mat ℝ) (hR : det R ≠ 0) (iG : Fin 3 → Int) (w : V3 ℝ) (hw : IsWave R (toR iG) w) :
    periodic (Basis.GGT R) iG = if iG = 0 then 0 else 4 * π / len w ^ 2 := by
  have hw' := wave_unique R hR _ _ hw
  have hl : len w ^ 2 = gsq (Basis.GGT R) (toR iG) := by rw [pow_two, len_sq, gsq_eq, hw']
  have h0 : toR iG = 0 ↔ iG = 0 := by
    constructor
    · intro h; funext k; have := congrFun h k; simpa [toR] using this
    · intro h; subst h; funext k; simp [toR]
  unfold periodic
  by_cases h : iG = 0
  · rw [if_neg (by rw [not_not]; exact (gsq_zero_iff R hR _).2 (h0.2 h)), if_pos h]
  · rw [if_pos (fun hz => h (h0.1 ((gsq_zero_iff R hR _).1 hz))), if_neg h, hl]

/-- The spherical kernel is the Fourier transform of `1/r` inside the sphere, also for wave vector zero. -/
theorem C91_sphere (R : Mat ℝ) (hR : det R ≠ 0) (Rc : ℝ) (iG : Fin 3 → Int) (w : V3 ℝ) (hw : IsWave R (toR iG) w) :
    sphere Rc (Basis.GGT R) iG = ballFT (fun r => 1 / r) Rc (len w) := by
  have hw' := wave_unique R hR _ _ hw
  have hl : len w = sqrt (gsq (Basis.GGT R) (toR iG)) := by rw [len, gsq_eq, hw']
  unfold sphere
  by_cases h : gsq (Basis.GGT R) (toR iG) = 0
  · rw [if_neg (not_not.2 h), hl, h, sqrt_zero, ballFT_coulomb_zero]
  · rw [if_pos h, hl, ballFT_coulomb_ne _ _ (sqrt_pos.2 (lt_of_le_of_ne (gsq_nonneg R _) (Ne.symm h))).ne', sq_sqrt (gsq_nonneg R _)]

/-- For a truncated direction perpendicular to the others, the slab kernel is the Fourier transform, across the thickness of the
cell, of the potential of a plane wave of charge; also for wave vectors along the normal and zero. -/
theorem C91_slab (R : Mat ℝ) (hR : det R ≠ 0) (i : Fin 3) (hp : Perp R i) (iG : Fin 3 → Int) (w : V3 ℝ) (hw : IsWave R (toR iG) w) :
    slab i (hlfL R i) (Basis.GGT R) iG = slabFT (len (across R i w)) (along R i w) (len (column R i) / 2) := by
  have hh : len (column R i) / 2 = hlfL R i := by rw [hlfL_eq]; norm_num; ring
  have hl := len_pos R hR i
  rw [hh, wave_unique R hR _ _ hw]
  by_cases h : iG = 0
  · have hz := (toR_zero iG).2 h
    have hg : gsq (Basis.GGT R) (toR iG) = 0 := (gsq_zero_iff R hR _).2 hz
    unfold slab
    rw [if_neg (not_not.2 hg), across_wave R hR i hp, along_wave R hR, hz]
    have hpz : plane i (0 : V3 ℝ) = 0 := by funext k; simp [plane]
    rw [hpz, (wave_zero_iff R hR 0).2 rfl]
    have : len (0 : V3 ℝ) = 0 := by simp [len, dot]
    rw [this]
    simp only [Pi.zero_apply, mul_zero, zero_div]
    rw [slabFT_zero _ (by rw [← hh]; positivity)]
  · have hv : toR iG ≠ 0 := fun hz => h ((toR_zero iG).1 hz)
    have hg : gsq (Basis.GGT R) (toR iG) ≠ 0 := fun hz => hv ((gsq_zero_iff R hR _).1 hz)
    have := slabK_value R hR i hp (toR iG) hv (iG i) rfl
    rw [← this]
    unfold slab
    rw [if_pos hg]
    rfl

/-- The plane potential used as the reference: away from the plane it solves the equation of the screened one-dimensional problem,
and its slope jumps by `-4π` at the plane. -/
theorem planePotential_ok (p : ℝ) :
    (∀ z, 0 < z → HasDerivAt (planePotential p) (-(2 * π * exp (-p * z))) z ∧
      HasDerivAt (fun z => -(2 * π * exp (-p * z))) (if p = 0 then 0 else p ^ 2 * planePotential p z) z) ∧
    ∀ z, planePotential p (-z) = planePotential p z := by
  refine ⟨fun z hz => ⟨?_, ?_⟩, fun z => by simp [planePotential]⟩
  · have hev : (fun z => if p = 0 then -2 * π * z else 2 * π / p * exp (-p * z)) =ᶠ[𝓝 z] planePotential p := by
      filter_upwards [lt_mem_nhds hz] with y hy
      simp [planePotential, abs_of_pos hy]
    refine HasDerivAt.congr_of_eventuallyEq ?_ hev.symm
    by_cases h : p = 0
    · simp only [if_pos h]
      exact ((hasDerivAt_id z).const_mul (-2 * π)).congr_deriv (by rw [h]; simp)
    · simp only [if_neg h]
      refine (((hasDerivAt_id z).const_mul (-p)).exp.const_mul (2 * π / p)).congr_deriv ?_
      simp only [id]; field_simp
  · refine (((hasDerivAt_id z).const_mul (-p)).exp.const_mul (2 * π)).neg.congr_deriv ?_
    by_cases h : p = 0
    · simp [h]
    · simp only [if_neg h, planePotential, abs_of_pos hz, id]
      field_simp

example : IsWave (cube 2) (toR (vec 0 1 1)) (vec 0 π π) ∧ det (cube 2) ≠ 0 ∧ Perp (cube 2) 2 := by
  refine ⟨fun j => ?_, by rw [cube_det]; norm_num, cube_perp 2 2⟩
  match j with | 0 | 1 | 2 => simp [dot, column, vec, cube, diag, toR]; try ring

/-- The kernel for point charges on an embedding grid is the Fourier transform of the short-ranged `erfc(r/(√2 σ))/r` over all space. -/
theorem C91_ion (R : Mat ℝ) (hR : det R ≠ 0) (s : ℝ) (hs : 0 < s) (iG : Fin 3 → Int) (w : V3 ℝ) (hw : IsWave R (toR iG) w) :
    Tendsto (fun Rc => ballFT (fun r => Smear.erfc (1 / (sqrt 2 * s) * r) / r) Rc (len w)) atTop (𝓝 (ionKernel s none (Basis.GGT R) iG)) := by
  have hw' := wave_unique R hR _ _ hw
  have hl : len w = sqrt (gsq (Basis.GGT R) (toR iG)) := by rw [len, gsq_eq, hw']
  have ho : 0 < 1 / (sqrt 2 * s) := by positivity
  have hsq : (1 / (sqrt 2 * s)) ^ 2 = 1 / (2 * s ^ 2) := by
    rw [div_pow, mul_pow, sq_sqrt (by norm_num : (0 : ℝ) ≤ 2)]; norm_num
  unfold ionKernel
  simp only
  by_cases h : gsq (Basis.GGT R) (toR iG) = 0
  · rw [if_neg (not_not.2 h), hl, h, sqrt_zero]
    have := erfc_tendsto_zero _ ho
    refine this.trans (le_of_eq ?_)
    rw [← pow_two, hsq]
    congr 1
    field_simp; norm_num
  · rw [if_pos h, hl]
    have hpos := lt_of_le_of_ne (gsq_nonneg R (toR iG)) (Ne.symm h)
    have := erfc_tendsto _ (sqrt (gsq (Basis.GGT R) (toR iG))) ho (sqrt_pos.2 hpos).ne'
    refine this.trans (le_of_eq ?_)
    rw [hsq, sq_sqrt hpos.le]
    have : gsq (Basis.GGT R) (toR iG) / (4 * (1 / (2 * s ^ 2))) = 0.5 * s * s * gsq (Basis.GGT R) (toR iG) := by
      field_simp; norm_num
    rw [this, neg_mul]
    congr 1
    ring

/-! ### Lattice derivatives -/

/-- The matrix returned for two fields is the volume times the derivative, with respect to strain of the lattice, of the pairing of
one field with the kernel applied to the other. Periodic case. -/
theorem C91_stress_periodic (R : Mat ℝ) (hR : det R ≠ 0) (e : Mat ℝ) (S : Box.Size) (X Y : Nat → ℂ) :
    HasDerivAt (fun t => ∑ i ∈ Finset.range (Box.nG S), halfWeight S (Box.hStart S i) *
        (starRingEnd ℂ (X i) * applyKernel S (periodic (Basis.GGT (strained R e t))) Y i).re)
      (contract (latticeGradient R S (periodicGrad (Basis.GGT R)) X Y) e / |det R|) 0 := by
  refine latticeGradient_deriv R hR e S (fun t => periodic (Basis.GGT (strained R e t))) _ X Y fun iG => ?_
  have h := radial_kernel R hR e (toR iG) (fun x => 4 * π / x) (-(4 * π) / (gsq (Basis.GGT R) (toR iG) * gsq (Basis.GGT R) (toR iG))) 0 (fun hv => by
    have hx := (gsq_pos R hR _ hv).ne'
    refine ((hasDerivAt_const (gsq (Basis.GGT R) (toR iG)) (4 * π)).div (hasDerivAt_id (gsq (Basis.GGT R) (toR iG))) hx).congr_deriv ?_
    simp only [id]
    generalize gsq (Basis.GGT R) (toR iG) = x at *
    field_simp
    try ring)
  refine h.congr_deriv ?_
  rw [periodicGrad, cart_radial]
  congr 1
  split
  · ring
  · rfl

/-- The same for the spherical kernel with a fixed radius. -/
theorem C91_stress_sphere_partial (R : Mat ℝ) (hR : det R ≠ 0) (Rc : ℝ) (e : Mat ℝ) (S : Box.Size) (X Y : Nat → ℂ) :
    HasDerivAt (fun t => ∑ i ∈ Finset.range (Box.nG S), halfWeight S (Box.hStart S i) *
        (starRingEnd ℂ (X i) * applyKernel S (sphere Rc (Basis.GGT (strained R e t))) Y i).re)
      (contract (latticeGradient R S (sphereGrad Rc (Basis.GGT R)) X Y) e / |det R|) 0 := by
  refine latticeGradient_deriv R hR e S (fun t => sphere Rc (Basis.GGT (strained R e t))) _ X Y fun iG => ?_
  have h := radial_kernel R hR e (toR iG) (fun x => 4 * π * (1 - cos (Rc * sqrt x)) / x)
    (4 * π * (sin (Rc * sqrt (gsq (Basis.GGT R) (toR iG))) * (Rc * (1 / (2 * sqrt (gsq (Basis.GGT R) (toR iG))))) * gsq (Basis.GGT R) (toR iG)
      - (1 - cos (Rc * sqrt (gsq (Basis.GGT R) (toR iG))))) / (gsq (Basis.GGT R) (toR iG) * gsq (Basis.GGT R) (toR iG))) (2 * π * Rc * Rc) (fun hv => by
    have hx := (gsq_pos R hR _ hv).ne'
    have h1 := (((hasDerivAt_id (gsq (Basis.GGT R) (toR iG))).sqrt hx).const_mul Rc).cos
    refine (((h1.const_sub 1).const_mul (4 * π)).div (hasDerivAt_id _) hx).congr_deriv ?_
    simp only [id]; field_simp)
  refine h.congr_deriv ?_
  rw [sphereGrad, cart_radial]
  congr 1
  split
  · rename_i hG
    have hpos := lt_of_le_of_ne (gsq_nonneg R (toR iG)) (Ne.symm hG)
    generalize gsq (Basis.GGT R) (toR iG) = x at *
    have hs := sqrt_pos.2 hpos
    have hx : x = sqrt x * sqrt x := (mul_self_sqrt hpos.le).symm
    rw [mul_comm (sqrt x) Rc]
    generalize sqrt x = y at *
    subst hx
    field_simp
    ring
  · rfl

/-- The same for the kernel of point charges on an embedding grid, at fixed width. -/
theorem C91_stress_ion (R : Mat ℝ) (hR : det R ≠ 0) (s : ℝ) (fluid : Option ℝ) (e : Mat ℝ) (S : Box.Size) (X Y : Nat → ℂ) :
    HasDerivAt (fun t => ∑ i ∈ Finset.range (Box.nG S), halfWeight S (Box.hStart S i) *
        (starRingEnd ℂ (X i) * applyKernel S (ionKernel s fluid (Basis.GGT (strained R e t))) Y i).re)
      (contract (latticeGradient R S (ionKernelGrad s (Basis.GGT R)) X Y) e / |det R|) 0 := by
  refine latticeGradient_deriv R hR e S (fun t => ionKernel s fluid (Basis.GGT (strained R e t))) _ X Y fun iG => ?_
  have h := radial_kernel R hR e (toR iG) (fun x => (1 - exp (-(0.5 * s * s) * x)) / x)
    ((exp (-(0.5 * s * s) * gsq (Basis.GGT R) (toR iG)) * (0.5 * s * s) * gsq (Basis.GGT R) (toR iG)
      - (1 - exp (-(0.5 * s * s) * gsq (Basis.GGT R) (toR iG)))) / (gsq (Basis.GGT R) (toR iG) * gsq (Basis.GGT R) (toR iG)))
    (match fluid with | none => 0.5 * s * s | some c => 0.5 * s * s - 0.5 * s * s * c) (fun hv => by
    have hx := (gsq_pos R hR _ hv).ne'
    have h1 := ((hasDerivAt_id (gsq (Basis.GGT R) (toR iG))).const_mul (-(0.5 * s * s))).exp
    refine ((h1.const_sub 1).div (hasDerivAt_id _) hx).congr_deriv ?_
    simp only [id]; field_simp)
  refine (h.const_mul (4 * π)).congr_deriv ?_
  rw [ionKernelGrad, cart_radial, ← mul_assoc]
  congr 1
  split
  · rename_i hG
    field_simp
    ring
  · simp

/-- The same for the slab kernel, with the thickness that of the cell, for strains that keep the truncated direction perpendicular. -/
theorem C91_stress_slab (R : Mat ℝ) (hR : det R ≠ 0) (i : Fin 3) (hp : Perp R i) (e : Mat ℝ) (hk : KeepsPerp R e i) (S : Box.Size) (X Y : Nat → ℂ) :
    HasDerivAt (fun t => ∑ j ∈ Finset.range (Box.nG S), halfWeight S (Box.hStart S j) *
        (starRingEnd ℂ (X j) * applyKernel S (slab i (hlfL (strained R e t) i) (Basis.GGT (strained R e t))) Y j).re)
      (contract (latticeGradient R S (slabGrad i (hlfL R i) (Basis.GGT R)) X Y) e / |det R|) 0 := by
  have hgii : Basis.GGT R i i ≠ 0 := by
    rw [GGT_ii R hR i hp]; have := len_pos R hR i; have := pi_pos; positivity
  refine latticeGradient_deriv R hR e S (fun t => slab i (hlfL (strained R e t) i) (Basis.GGT (strained R e t))) _ X Y fun iG => ?_
  by_cases h : iG = 0
  · have hz := (toR_zero iG).2 h
    have h0 : ∀ M : Mat ℝ, gsq M (toR iG) = 0 := by intro M; rw [hz]; simp [gsq, metricLengthSq]
    have e1 : (fun t => slab i (hlfL (strained R e t) i) (Basis.GGT (strained R e t)) iG)
        = fun t => 4 * π * (-0.5 * hlfL (strained R e t) i * hlfL (strained R e t) i) := by
      funext t; unfold slab; rw [if_neg (not_not.2 (h0 _))]
    rw [e1]
    have hd := hlfL_deriv R hR e i
    refine (((hd.const_mul (-0.5)).mul hd).const_mul (4 * π)).congr_deriv ?_
    have hm : slabGrad i (hlfL R i) (Basis.GGT R) iG = setDiag (scale 0 (outer (plane i 0) (plane i 0))) i (-4 * π * hlfL R i * hlfL R i / Basis.GGT R i i) := by
      unfold slabGrad
      simp only [h0, ne_eq, not_true_eq_false, if_false]
      funext k l; simp [setDiag, scale]
    rw [hm, outer_plane_cart R hR i hp, contract_add, contract_scale, contract_scale, strained_zero]
    field_simp
    ring
  · have hv : toR iG ≠ 0 := fun hz => h ((toR_zero iG).1 hz)
    have hg : gsq (Basis.GGT R) (toR iG) ≠ 0 := fun hz => hv ((gsq_zero_iff R hR _).1 hz)
    have hd := slabK_deriv R hR e i hp hk (cos (π * toR iG i)) (toR iG) hv
    have hev : (fun t => slab i (hlfL (strained R e t) i) (Basis.GGT (strained R e t)) iG) =ᶠ[𝓝 0]
        fun t => slabK (strained R e t) i (cos (π * toR iG i)) (toR iG) := by
      filter_upwards [det_near R hR e] with t ht
      have : gsq (Basis.GGT (strained R e t)) (toR iG) ≠ 0 := fun hz => hv ((gsq_zero_iff _ ht _).1 hz)
      unfold slab
      rw [if_pos this]
      rfl
    refine (hd.congr_of_eventuallyEq hev).congr_deriv ?_
    unfold slabGrad
    simp only [if_pos hg]
    rw [cart_scale, outer_plane_cart R hR i hp, contract_scale, contract_add, contract_scale, contract_scale]
    field_simp

example : KeepsPerp (cube 2) (diag 1 2 3) 2 := by
  intro j hj
  have : ∀ t, dot (column (strained (cube 2) (diag 1 2 3) t) 2) (column (strained (cube 2) (diag 1 2 3) t) j) = 0 := by
    intro t
    match j with
    | 2 => exact absurd rfl hj
    | 0 | 1 => simp [dot, column, vec, strained, cube, diag]
  simp only [this]
  exact hasDerivAt_const _ _

theorem cube_strained (a t : ℝ) : strained (cube a) (diag 1 1 1) t = cube (a * (1 + t)) := by
  funext i j
  match i, j with
  | 0, 0 | 0, 1 | 0, 2 | 1, 0 | 1, 1 | 1, 2 | 2, 0 | 2, 1 | 2, 2 => simp [strained, cube, diag, vec]; try ring

/-- The in-radius of a cubic cell. -/
theorem cube_inRadius (a r : ℝ) (ha : 0 < a) (h : InRadius (cube a) r) : r = a / 2 := by
  obtain ⟨⟨m, hm, hr⟩, hmin⟩ := h
  have hlen : ∀ m : Fin 3 → Int, len (mulMV (cube a) fun k => (m k : ℝ)) = a * sqrt (((m 0) ^ 2 + (m 1) ^ 2 + (m 2) ^ 2 : Int) : ℝ) := by
    intro m
    have : dot (mulMV (cube a) fun k => (m k : ℝ)) (mulMV (cube a) fun k => (m k : ℝ)) = a ^ 2 * (((m 0) ^ 2 + (m 1) ^ 2 + (m 2) ^ 2 : Int) : ℝ) := by
      simp [dot, mulMV, cube, diag, vec]; ring
    rw [len, this, sqrt_mul (sq_nonneg a), sqrt_sq ha.le]
  have h1 : 2 * r ≤ a := by
    have := hmin ⟨vec 1 0 0, by intro h; have := congrFun h 0; simp [vec] at this, rfl⟩
    rw [hlen] at this
    simpa [vec] using this
  have h2 : a ≤ 2 * r := by
    rw [hr, hlen]
    have hge : (1 : ℝ) ≤ (((m 0) ^ 2 + (m 1) ^ 2 + (m 2) ^ 2 : Int) : ℝ) := by
      have : 1 ≤ (m 0) ^ 2 + (m 1) ^ 2 + (m 2) ^ 2 := by
        by_contra hc
        refine hm (funext fun k => ?_)
        have q0 := sq_nonneg (m 0)
        have q1 := sq_nonneg (m 1)
        have q2 := sq_nonneg (m 2)
        match k with
        | 0 => exact pow_eq_zero_iff (two_ne_zero) |>.1 (by omega)
        | 1 => exact pow_eq_zero_iff (two_ne_zero) |>.1 (by omega)
        | 2 => exact pow_eq_zero_iff (two_ne_zero) |>.1 (by omega)
      exact_mod_cast this
    have := sqrt_le_sqrt hge
    rw [sqrt_one] at this
    nlinarith
  linarith

/-- With the default radius (that of the largest sphere in the Wigner-Seitz cell, which changes with the lattice) the matrix returned
is not the derivative: the change of the radius is left out. -/
theorem C91_sphere_violation : ∃ (R e : Mat ℝ) (S : Box.Size) (X : Nat → ℂ), det R ≠ 0 ∧ S.Pos ∧
    ∀ Rc inR : ℝ → ℝ, (∀ᶠ t in 𝓝 0, InRadius (strained R e t) (inR t) ∧ sphereRc 0 (inR t) = .ok (Rc t)) →
      ¬ HasDerivAt (fun t => ∑ i ∈ Finset.range (Box.nG S), halfWeight S (Box.hStart S i) *
          (starRingEnd ℂ (X i) * applyKernel S (sphere (Rc t) (Basis.GGT (strained R e t))) X i).re)
        (contract (latticeGradient R S (sphereGrad (Rc 0) (Basis.GGT R)) X X) e / |det R|) 0 := by
  refine ⟨cube 2, diag 1 1 1, ⟨1, 1, 1⟩, fun _ => 1, by rw [cube_det]; norm_num, ⟨by norm_num, by norm_num, by norm_num⟩, ?_⟩
  intro Rc inR h hd
  have hS : Box.nG ⟨1, 1, 1⟩ = 1 := rfl
  have hst : Box.hStart ⟨1, 1, 1⟩ 0 = ⟨0, 0, 0⟩ := rfl
  have h0 : ∀ M : Mat ℝ, gsq M (toR (ofIV ⟨0, 0, 0⟩)) = 0 := by
    intro M; simp [gsq, metricLengthSq, toR, ofIV, vec]
  have hRc : ∀ᶠ t in 𝓝 (0 : ℝ), Rc t = 1 + t := by
    filter_upwards [h, lt_mem_nhds (show (-1 : ℝ) < 0 by norm_num)] with t ht ht1
    rw [cube_strained] at ht
    have hin := cube_inRadius _ _ (by nlinarith) ht.1
    have hpos : ¬ (0 > inR t) := by rw [hin]; push Not; nlinarith
    have h2 := ht.2
    unfold sphereRc at h2
    rw [if_neg hpos, if_pos rfl] at h2
    simp only [Except.ok.injEq] at h2
    rw [← h2, hin]; ring
  have e1 : contract (latticeGradient (cube 2) ⟨1, 1, 1⟩ (sphereGrad (Rc 0) (Basis.GGT (cube 2))) (fun _ => 1) fun _ => 1) (diag 1 1 1) / |det (cube 2)| = 0 := by
    have : gradSum ⟨1, 1, 1⟩ (sphereGrad (Rc 0) (Basis.GGT (cube 2))) (fun _ => 1) (fun _ => 1) = fun _ _ => 0 := by
      funext a b
      simp only [gradSum, hS, Finset.sum_range_one, hst, sphereGrad, h0, scale]
      simp
    simp [latticeGradient, this, contract_eq, scale, mulMM]
  rw [e1] at hd
  have hev : (fun t => ∑ i ∈ Finset.range (Box.nG ⟨1, 1, 1⟩), halfWeight ⟨1, 1, 1⟩ (Box.hStart ⟨1, 1, 1⟩ i) *
          (starRingEnd ℂ ((fun _ => 1 : Nat → ℂ) i) * applyKernel ⟨1, 1, 1⟩ (sphere (Rc t) (Basis.GGT (strained (cube 2) (diag 1 1 1) t))) (fun _ => 1) i).re)
        =ᶠ[𝓝 0] fun t => 2 * π * (1 + t) * (1 + t) := by
    filter_upwards [hRc] with t ht
    simp only [hS, Finset.sum_range_one, hst, applyKernel, sphere, h0]
    simp [halfWeight, ht]
  have h2 : HasDerivAt (fun t : ℝ => 2 * π * (1 + t) * (1 + t)) (4 * π) 0 := by
    have hi := (hasDerivAt_id (0 : ℝ)).const_add 1
    exact ((hi.const_mul (2 * π)).mul hi).congr_deriv (by simp; ring)
  have := (h2.congr_of_eventuallyEq hev).unique hd
  have := pi_pos
  linarith

end
end Jdftx.CoulK
