import Verif.Props.CoulombKernels

/-!
# C92: exchange kernels
-/
namespace Jdftx.CoulK
noncomputable section
open M3 Ewald Real Filter Topology

/-! ### Values -/

theorem len_wave (R : Mat ℝ) (hR : det R ≠ 0) (v w : V3 ℝ) (hw : IsWave R v w) : len w = sqrt (gsq (Basis.GGT R) v) := by
  rw [len, gsq_eq, wave_unique R hR _ _ hw]

/-- The screened periodic kernel is the Fourier transform of `erfc(ωr)/r` over all space, for zero and for other wave vectors. -/
theorem C92_screened (R : Mat ℝ) (hR : det R ≠ 0) (omega thr : ℝ) (ho : 0 < omega) (ht : 0 < thr) (kDiff : V3 ℝ) (iG : Fin 3 → Int) (w : V3 ℝ)
    (hw : IsWave R (plusK iG kDiff) w) (hsep : w = 0 ∨ thr ≤ dot w w) :
    Tendsto (fun Rc => ballFT (fun r => Smear.erfc (omega * r) / r) Rc (len w)) atTop
      (𝓝 (exFactor (exScreened omega) (exPeriodicVzero 0 omega) thr (Basis.GGT R) kDiff iG)) := by
  have hl := len_wave R hR _ _ hw
  have hg : gsq (Basis.GGT R) (plusK iG kDiff) = dot w w := by rw [gsq_eq, wave_unique R hR _ _ hw]
  rcases hsep with hz | hsep
  · have h0 : dot w w = 0 := by rw [hz]; simp [dot]
    rw [exFactor, hg, h0, if_pos ht, hl, hg, h0, sqrt_zero]
    have := erfc_tendsto_zero omega ho
    simpa [exPeriodicVzero, ho.ne'] using this
  · have hpos : 0 < dot w w := lt_of_lt_of_le ht hsep
    rw [exFactor, hg, if_neg (not_lt.2 hsep), hl, hg]
    have := erfc_tendsto omega _ ho (sqrt_pos.2 hpos).ne'
    refine this.trans (le_of_eq ?_)
    rw [sq_sqrt hpos.le, exScreened, inv4omegaSq]
    congr 5
    have := ho.ne'
    field_simp
    norm_num

/-- The kernel cut off at a sphere is the Fourier transform of `1/r` in the sphere. -/
theorem C92_sphere (R : Mat ℝ) (hR : det R ≠ 0) (Rc thr : ℝ) (ht : 0 < thr) (kDiff : V3 ℝ) (iG : Fin 3 → Int) (w : V3 ℝ)
    (hw : IsWave R (plusK iG kDiff) w) (hsep : w = 0 ∨ thr ≤ dot w w) :
    exFactor (exSphere Rc) (exSphereVzero Rc) thr (Basis.GGT R) kDiff iG = ballFT (fun r => 1 / r) Rc (len w) := by
  have hl := len_wave R hR _ _ hw
  have hg : gsq (Basis.GGT R) (plusK iG kDiff) = dot w w := by rw [gsq_eq, wave_unique R hR _ _ hw]
  rcases hsep with hz | hsep
  · have h0 : dot w w = 0 := by rw [hz]; simp [dot]
    rw [exFactor, hg, h0, if_pos ht, hl, hg, h0, sqrt_zero, ballFT_coulomb_zero, exSphereVzero]
  · have hpos : 0 < dot w w := lt_of_lt_of_le ht hsep
    rw [exFactor, hg, if_neg (not_lt.2 hsep), hl, hg, ballFT_coulomb_ne _ _ (sqrt_pos.2 hpos).ne', sq_sqrt hpos.le, exSphere]

/-- The function tabulated for the screened kernel in a sphere is the Fourier transform of `erfc(ωr)/r` in the sphere, and the two
derivatives used for the stress are those with respect to the logarithm of a volume proportional to the cube of the radius. -/
theorem C92_sphere_screened (omega Rc : ℝ) (ho : omega ≠ 0) (hR : 0 < Rc) :
    (∀ k, truncatedErfcTilde k omega Rc = ballFT (fun r => Smear.erfc (omega * r) / r) Rc k) ∧
    (∀ k, k ≠ 0 → HasDerivAt (fun u => truncatedErfcTilde k omega (Rc * exp (u / 3))) (exSphereScreenedLn omega Rc k) 0) ∧
    (∀ i, HasDerivAt (fun u => truncatedErfcTilde 0 omega (Rc * exp (u / 3))) (exSphereVzeroRRT omega Rc i i) 0) := by
  have hr : HasDerivAt (fun u : ℝ => Rc * exp (u / 3)) (Rc / 3) 0 := by
    refine (((hasDerivAt_id (0 : ℝ)).div_const 3).exp.const_mul Rc).congr_deriv ?_
    simp; ring
  have hcomp : ∀ k, HasDerivAt (fun u => truncatedErfcTilde k omega (Rc * exp (u / 3)))
      (4 * π * Smear.erfc (omega * Rc) * (if k = 0 then Rc else sin (k * Rc) / k) * (Rc / 3)) 0 := by
    intro k
    have h := truncated_deriv omega (Rc * exp (0 / 3)) k ho
    have h2 := HasDerivAt.comp (0 : ℝ) (h₂ := fun Rc => truncatedErfcTilde k omega Rc) h hr
    refine h2.congr_deriv ?_
    simp
  refine ⟨fun k => truncated_ball omega Rc k ho, fun k hk => (hcomp k).congr_deriv ?_, fun i => (hcomp 0).congr_deriv ?_⟩
  · rw [if_neg hk, exSphereScreenedLn]; field_simp
  · rw [if_pos rfl, exSphereVzeroRRT, mul_comm Rc omega]
    match i with | 0 | 1 | 2 => simp [scale, diag, vec]; ring

/-- The unscreened slab kernel, for a wave vector offset within the plane, is the Fourier transform across the thickness of the cell
of the potential of a plane wave of charge. -/
theorem C92_slab (R : Mat ℝ) (hR : det R ≠ 0) (i : Fin 3) (hp : Perp R i) (thr : ℝ) (ht : 0 < thr) (kDiff : V3 ℝ) (hk : kDiff i = 0)
    (iG : Fin 3 → Int) (w : V3 ℝ) (hw : IsWave R (plusK iG kDiff) w) (hsep : w = 0 ∨ thr ≤ dot w w) :
    exSlab i (exHlfL R i) (fun _ _ => 0) (exSlabVzero (exHlfL R i) 0 0) thr (Basis.GGT R) kDiff iG
      = slabFT (len (across R i w)) (along R i w) (len (column R i) / 2) := by
  have hh : len (column R i) / 2 = hlfL R i := by rw [hlfL_eq]; norm_num; ring
  have hl := len_pos R hR i
  have hw' := wave_unique R hR _ _ hw
  have hg : gsq (Basis.GGT R) (plusK iG kDiff) = dot w w := by rw [gsq_eq, hw']
  have hvi : plusK iG kDiff i = iG i := by simp [plusK, hk, toR]
  rw [hh, exHlfL_eq]
  rcases hsep with hz | hsep
  · have h0 : dot w w = 0 := by rw [hz]; simp [dot]
    unfold exSlab
    simp only [hg, h0, if_pos ht]
    have ha : along R i w = 0 := by rw [along, hz]; simp [dot]
    have hac : across R i w = 0 := by funext k; simp only [across]; rw [ha, hz]; simp
    have hl0 : len (0 : V3 ℝ) = 0 := by simp [len, dot]
    rw [ha, hac, hl0, slabFT_zero _ (by rw [← hh]; positivity), exSlabVzero]
    norm_num; ring
  · have hpos : 0 < dot w w := lt_of_lt_of_le ht hsep
    have hv : plusK iG kDiff ≠ 0 := fun hz => by
      rw [(gsq_zero_iff R hR _).2 hz] at hg; linarith
    have := slabK_value R hR i hp (plusK iG kDiff) hv (iG i) hvi
    rw [← hw'] at this
    rw [← this]
    unfold exSlab
    simp only [hg, if_neg (not_lt.2 hsep)]
    rw [slabK, hg, hvi]
    simp only [toR, safe]
    ring_nf

example : IsWave (cube 2) (plusK (vec 0 1 1) (vec (1 / 2) 0 0)) (vec (π / 2) π π) ∧ (1 : ℝ) ≤ dot (vec (π / 2) π π) (vec (π / 2) π π) := by
  refine ⟨fun j => ?_, ?_⟩
  · match j with | 0 | 1 | 2 => simp [dot, column, vec, cube, diag, toR, plusK]; try ring
  · have := pi_gt_three
    simp only [dot, vec]
    simp
    nlinarith

/-! ### Lattice derivatives -/

/-- The wave-vector offset is zero, or no wave vector of the grid with the offset is near zero. -/
def Clear (R : Mat ℝ) (S : Box.Size) (kDiff : V3 ℝ) (thr : ℝ) : Prop :=
  ∀ i < Box.nr S, ∀ w, IsWave R (plusK (ofIV (Box.gStart S i)) kDiff) w → dot w w ≠ thr ∧ (dot w w < thr ↔ i = 0 ∧ dot kDiff kDiff < thr)

theorem clear_gsq {R : Mat ℝ} (hR : det R ≠ 0) {S : Box.Size} {kDiff : V3 ℝ} {thr : ℝ} (h : Clear R S kDiff thr) {i : Nat} (hi : i < Box.nr S) :
    gsq (Basis.GGT R) (plusK (ofIV (Box.gStart S i)) kDiff) ≠ thr ∧
      (gsq (Basis.GGT R) (plusK (ofIV (Box.gStart S i)) kDiff) < thr ↔ i = 0 ∧ dot kDiff kDiff < thr) := by
  rw [gsq_eq]
  exact h i hi _ (wave_isWave R hR _)

/-- The general step from factors to the sum. -/
theorem ex_sum (R : Mat ℝ) (hR : det R ≠ 0) (e : Mat ℝ) (S : Box.Size) (hS : S.Pos) (kern : ℝ → ℝ → ℝ) (Vz : ℝ → ℝ) (V : Mat ℝ) (prefac lnDet : ℝ → ℝ)
    (thr : ℝ) (hthr : 0 < thr) (kDiff : V3 ℝ) (hc : Clear R S kDiff thr) (X : Nat → ℂ) (hV : HasDerivAt Vz (contract V e) 0)
    (hk : ∀ v, v ≠ 0 → HasDerivAt (fun t => kern t (gsq (Basis.GGT (strained R e t)) v))
      (prefac (gsq (Basis.GGT R) v) * contract (outer (wave R v) (wave R v)) e + lnDet (gsq (Basis.GGT R) v) * trace e) 0) :
    HasDerivAt (fun t => ∑ i ∈ Finset.range (Box.nr S),
        exFactor (kern t) (Vz t) thr (Basis.GGT (strained R e t)) kDiff (ofIV (Box.gStart S i)) * Complex.normSq (X i))
      (contract (exLatticeGradient R S (exGrad prefac lnDet thr R kDiff) V thr kDiff X) e / |det R|) 0 := by
  classical
  refine exLatticeGradient_deriv R hR e S hS (fun t => exFactor (kern t) (Vz t) thr (Basis.GGT (strained R e t)) kDiff) _ V thr kDiff X fun i hi => ?_
  obtain ⟨h1, h2⟩ := clear_gsq hR hc hi
  have h := exFactor_deriv R hR e kern Vz (contract V e) prefac lnDet thr hthr kDiff _ h1 (fun _ => hV) hk
  refine h.congr_deriv ?_
  congr 1
  by_cases hlt : gsq (Basis.GGT R) (plusK (ofIV (Box.gStart S i)) kDiff) < thr
  · rw [if_pos hlt, if_pos (h2.1 hlt)]
  · rw [if_neg hlt, if_neg (fun h => hlt (h2.2 h))]

/-- Periodic kernel without screening: the matrix returned is the volume times the strain derivative of the exchange energy of a pair
density, provided the correction at zero wave vector is given with its own derivative. -/
theorem C92_stress_periodic (R : Mat ℝ) (hR : det R ≠ 0) (e : Mat ℝ) (S : Box.Size) (hS : S.Pos) (corr : ℝ → ℝ) (corrRRT : Mat ℝ)
    (thr : ℝ) (hthr : 0 < thr) (kDiff : V3 ℝ) (hc : Clear R S kDiff thr) (X : Nat → ℂ) (hcorr : HasDerivAt corr (contract corrRRT e) 0) :
    HasDerivAt (fun t => ∑ i ∈ Finset.range (Box.nr S),
        exFactor exPeriodic (exPeriodicVzero (corr t) 0) thr (Basis.GGT (strained R e t)) kDiff (ofIV (Box.gStart S i)) * Complex.normSq (X i))
      (contract (exLatticeGradient R S (exGrad exPeriodicGrad (fun _ => 0) thr R kDiff) corrRRT thr kDiff X) e / |det R|) 0 := by
  refine ex_sum R hR e S hS (fun _ => exPeriodic) (fun t => exPeriodicVzero (corr t) 0) corrRRT exPeriodicGrad (fun _ => 0) thr hthr kDiff hc X
    (hcorr.add_const _) fun v hv => ?_
  have hx := gsq_pos' R hR v hv
  have hf : HasDerivAt exPeriodic (-(4 * π) / (gsq (Basis.GGT R) v * gsq (Basis.GGT R) v)) (gsq (Basis.GGT R) v) := by
    refine ((hasDerivAt_const (gsq (Basis.GGT R) v) (4 * π)).div (hasDerivAt_id (gsq (Basis.GGT R) v)) hx).congr_deriv ?_
    generalize gsq (Basis.GGT R) v = x at *
    simp only [id]; ring
  refine (radial_deriv R hR e v exPeriodic _ hf).congr_deriv ?_
  rw [exPeriodicGrad]; ring

/-- The same with screening. -/
theorem C92_stress_screened (R : Mat ℝ) (hR : det R ≠ 0) (e : Mat ℝ) (S : Box.Size) (hS : S.Pos) (omega : ℝ) (corr : ℝ → ℝ) (corrRRT : Mat ℝ)
    (thr : ℝ) (hthr : 0 < thr) (kDiff : V3 ℝ) (hc : Clear R S kDiff thr) (X : Nat → ℂ) (hcorr : HasDerivAt corr (contract corrRRT e) 0) :
    HasDerivAt (fun t => ∑ i ∈ Finset.range (Box.nr S),
        exFactor (exScreened omega) (exPeriodicVzero (corr t) omega) thr (Basis.GGT (strained R e t)) kDiff (ofIV (Box.gStart S i)) * Complex.normSq (X i))
      (contract (exLatticeGradient R S (exGrad (exScreenedGrad omega) (fun _ => 0) thr R kDiff) corrRRT thr kDiff X) e / |det R|) 0 := by
  refine ex_sum R hR e S hS (fun _ => exScreened omega) (fun t => exPeriodicVzero (corr t) omega) corrRRT (exScreenedGrad omega) (fun _ => 0) thr hthr kDiff hc X
    (hcorr.add_const _) fun v hv => ?_
  have hx := gsq_pos' R hR v hv
  have hf : HasDerivAt (exScreened omega) (4 * π * (exp (-inv4omegaSq omega * gsq (Basis.GGT R) v) * inv4omegaSq omega * gsq (Basis.GGT R) v
      - (1 - exp (-inv4omegaSq omega * gsq (Basis.GGT R) v))) / (gsq (Basis.GGT R) v * gsq (Basis.GGT R) v)) (gsq (Basis.GGT R) v) := by
    have h1 := ((hasDerivAt_id (gsq (Basis.GGT R) v)).const_mul (-inv4omegaSq omega)).exp
    refine (((h1.const_sub 1).const_mul (4 * π)).div (hasDerivAt_id (gsq (Basis.GGT R) v)) hx).congr_deriv ?_
    generalize gsq (Basis.GGT R) v = x at *
    simp only [id]; field_simp
  refine (radial_deriv R hR e v (exScreened omega) _ hf).congr_deriv ?_
  rw [exScreenedGrad]
  generalize gsq (Basis.GGT R) v = x at *
  field_simp
  ring

/-- The same for the kernel cut off at a sphere with the volume of the supercell of `nk` unit cells. -/
theorem C92_stress_sphere (R : Mat ℝ) (hR : det R ≠ 0) (e : Mat ℝ) (S : Box.Size) (hS : S.Pos) (nk : ℝ) (hn : 0 < nk)
    (thr : ℝ) (hthr : 0 < thr) (kDiff : V3 ℝ) (hc : Clear R S kDiff thr) (X : Nat → ℂ) :
    HasDerivAt (fun t => ∑ i ∈ Finset.range (Box.nr S),
        exFactor (exSphere (exRc none (nk * |det (strained R e t)|))) (exSphereVzero (exRc none (nk * |det (strained R e t)|))) thr
          (Basis.GGT (strained R e t)) kDiff (ofIV (Box.gStart S i)) * Complex.normSq (X i))
      (contract (exLatticeGradient R S (exGrad (exSphereGrad (exRc none (nk * |det R|))) (exSphereLn (exRc none (nk * |det R|))) thr R kDiff)
        (exSphereVzeroRRT 0 (exRc none (nk * |det R|))) thr kDiff X) e / |det R|) 0 := by
  refine ex_sum R hR e S hS (fun t => exSphere (exRc none (nk * |det (strained R e t)|))) (fun t => exSphereVzero (exRc none (nk * |det (strained R e t)|)))
    _ _ _ thr hthr kDiff hc X ?_ fun v hv => exSphere_deriv R hR e nk hn v hv
  have hr := exRc_deriv R hR e nk hn
  refine ((hr.const_mul (2 * π)).mul hr).congr_deriv ?_
  have h1 : Smear.erfc 0 = 1 := Cavity.erfc_zero
  simp only [strained_zero, exSphereVzeroRRT, contract_scale, contract_id, mul_zero, h1]
  ring

/-- The same for the slab without screening, for an offset within the plane and strains that keep the truncated direction
perpendicular. -/
theorem C92_stress_slab (R : Mat ℝ) (hR : det R ≠ 0) (i : Fin 3) (hp : Perp R i) (e : Mat ℝ) (hk : KeepsPerp R e i) (S : Box.Size) (hS : S.Pos)
    (corr : ℝ → ℝ) (corrRRT : Mat ℝ) (thr : ℝ) (hthr : 0 < thr) (kDiff : V3 ℝ) (hki : kDiff i = 0) (hc : Clear R S kDiff thr) (X : Nat → ℂ)
    (hcorr : HasDerivAt corr (contract corrRRT e) 0) :
    HasDerivAt (fun t => ∑ j ∈ Finset.range (Box.nr S),
        exSlab i (exHlfL (strained R e t) i) (fun _ _ => 0) (exSlabVzero (exHlfL (strained R e t) i) 0 (corr t)) thr
          (Basis.GGT (strained R e t)) kDiff (ofIV (Box.gStart S j)) * Complex.normSq (X j))
      (contract (exLatticeGradient R S (exSlabGrad i (exHlfL R i) (zHatOuter R i) thr R kDiff)
        (exSlabVzeroRRT (exHlfL R i) (zHatOuter R i) corrRRT) thr kDiff X) e / |det R|) 0 := by
  classical
  refine exLatticeGradient_deriv R hR e S hS (fun t => exSlab i (exHlfL (strained R e t) i) (fun _ _ => 0)
    (exSlabVzero (exHlfL (strained R e t) i) 0 (corr t)) thr (Basis.GGT (strained R e t)) kDiff) _ _ thr kDiff X fun j hj => ?_
  obtain ⟨h1, h2⟩ := clear_gsq hR hc hj
  generalize ofIV (Box.gStart S j) = iG at *
  have hvi : plusK iG kDiff i = iG i := by simp [plusK, hki, toR]
  have hcont := (gsq_deriv R hR e (plusK iG kDiff)).continuousAt
  have h0 : gsq (Basis.GGT (strained R e 0)) (plusK iG kDiff) = gsq (Basis.GGT R) (plusK iG kDiff) := by rw [strained_zero]
  rcases lt_or_gt_of_ne h1 with hl | hg
  · rw [if_pos (h2.1 hl)]
    have hgrad : exSlabGrad i (exHlfL R i) (zHatOuter R i) thr R kDiff iG = fun _ _ => 0 := by
      unfold exSlabGrad
      simp only [gsq_cart, if_neg (not_lt.2 hl.le)]
    have hz : contract (fun _ _ => 0) e = 0 := by simp [contract_eq]
    rw [hgrad, hz, zero_add]
    have hd := hlfL_deriv R hR e i
    have hV : HasDerivAt (fun t => exSlabVzero (exHlfL (strained R e t) i) 0 (corr t)) (contract (exSlabVzeroRRT (exHlfL R i) (zHatOuter R i) corrRRT) e) 0 := by
      simp only [exHlfL_eq, exSlabVzero]
      refine (((hd.pow 2).const_mul (-2 * π)).const_add 0 |>.add hcorr).congr_deriv ?_
      have : exSlabVzeroRRT (hlfL R i) (zHatOuter R i) corrRRT = fun a b => scale (-4 * π * hlfL R i ^ 2) (zHatOuter R i) a b + corrRRT a b := rfl
      rw [this, contract_add, contract_scale, strained_zero]
      simp only [Nat.cast_ofNat, Nat.add_one_sub_one, pow_one]
      ring
    refine hV.congr_of_eventuallyEq ?_
    filter_upwards [hcont.eventually_lt continuousAt_const (by rw [h0]; exact hl)] with t ht
    unfold exSlab
    simp only [if_pos ht]
  · rw [if_neg (fun h => not_lt.2 hg.le (h2.2 h)), add_zero]
    have hv : plusK iG kDiff ≠ 0 := fun hz => by
      rw [(gsq_zero_iff R hR _).2 hz] at hg; linarith
    have hd := slabK_deriv R hR e i hp hk (cos (π * toR iG i)) (plusK iG kDiff) hv
    have hev : (fun t => exSlab i (exHlfL (strained R e t) i) (fun _ _ => 0) (exSlabVzero (exHlfL (strained R e t) i) 0 (corr t)) thr
          (Basis.GGT (strained R e t)) kDiff iG) =ᶠ[𝓝 0] fun t => slabK (strained R e t) i (cos (π * toR iG i)) (plusK iG kDiff) := by
      filter_upwards [continuousAt_const.eventually_lt hcont (by rw [h0]; exact hg)] with t ht
      unfold exSlab
      simp only [if_neg (not_lt.2 (le_of_lt ht))]
      rw [slabK, hvi, exHlfL_eq]
      simp only [toR, safe]
      ring_nf
    refine (hd.congr_of_eventuallyEq hev).congr_deriv ?_
    have hsplit := gsq_split R hR i hp (plusK iG kDiff)
    have haxis : gsq (Basis.GGT R) (plusK iG kDiff) - gsq (Basis.GGT R) (plane i (plusK iG kDiff))
        = Basis.GGT R i i * plusK iG kDiff i * plusK iG kDiff i := by linarith
    have hgrad : exSlabGrad i (exHlfL R i) (zHatOuter R i) thr R kDiff iG = fun a b =>
        scale (4 * π * (1 / gsq (Basis.GGT R) (plusK iG kDiff)) * (2 * (1 - exp (-sqrt (gsq (Basis.GGT R) (plane i (plusK iG kDiff))) * hlfL R i) * cos (π * toR iG i))
            * (1 / gsq (Basis.GGT R) (plusK iG kDiff)) - exp (-sqrt (gsq (Basis.GGT R) (plane i (plusK iG kDiff))) * hlfL R i) * cos (π * toR iG i) * hlfL R i
            * (if sqrt (gsq (Basis.GGT R) (plane i (plusK iG kDiff))) ≠ 0 then 1 / sqrt (gsq (Basis.GGT R) (plane i (plusK iG kDiff))) else 0)))
          (outer (wave R (plane i (plusK iG kDiff))) (wave R (plane i (plusK iG kDiff)))) a b
        + scale (4 * π * (1 / gsq (Basis.GGT R) (plusK iG kDiff)) * (2 * (1 - exp (-sqrt (gsq (Basis.GGT R) (plane i (plusK iG kDiff))) * hlfL R i) * cos (π * toR iG i))
            * (1 / gsq (Basis.GGT R) (plusK iG kDiff)) * (Basis.GGT R i i * plusK iG kDiff i * plusK iG kDiff i)
            + exp (-sqrt (gsq (Basis.GGT R) (plane i (plusK iG kDiff))) * hlfL R i) * cos (π * toR iG i) * hlfL R i * sqrt (gsq (Basis.GGT R) (plane i (plusK iG kDiff)))))
          (zHatOuter R i) a b := by
      funext a b
      unfold exSlabGrad
      simp only [gsq_cart, if_pos hg, exHlfL_eq, haxis]
      rfl
    rw [hgrad, contract_add, contract_scale, contract_scale]
    simp only [ne_eq]
    generalize gsq (Basis.GGT R) (plusK iG kDiff) = x
    ring

/-- The hypothesis is met: a cubic cell with zero offset. -/
theorem clear_example : Clear (cube 1) ⟨2, 1, 1⟩ 0 1 := by
  have hdet : det (cube 1) ≠ 0 := by rw [cube_det]; norm_num
  have hpi := pi_gt_three
  intro i hi w hw
  have hsq : dot w w = (2 * π) ^ 2 * dot (plusK (ofIV (Box.gStart ⟨2, 1, 1⟩ i)) 0) (plusK (ofIV (Box.gStart ⟨2, 1, 1⟩ i)) 0) := by
    have : ∀ j, w j = 2 * π * plusK (ofIV (Box.gStart ⟨2, 1, 1⟩ i)) 0 j := by
      intro j
      have := hw j
      rw [← this]
      match j with | 0 | 1 | 2 => simp [dot, column, vec, cube, diag]
    simp only [dot, this]; ring
  have hi2 : i = 0 ∨ i = 1 := by have : i < 2 := hi; omega
  rcases hi2 with rfl | rfl
  · have : Box.gStart ⟨2, 1, 1⟩ 0 = ⟨0, 0, 0⟩ := by decide
    rw [this] at hsq
    have h0 : dot w w = 0 := by rw [hsq]; simp [dot, plusK, toR, ofIV, vec]
    rw [h0]
    simp [dot]
  · have : Box.gStart ⟨2, 1, 1⟩ 1 = ⟨1, 0, 0⟩ := by decide
    rw [this] at hsq
    have h0 : dot w w = (2 * π) ^ 2 := by rw [hsq]; simp [dot, plusK, toR, ofIV, vec]
    rw [h0]
    constructor
    · nlinarith
    · constructor
      · intro h; nlinarith
      · intro h; exact absurd h.1 (by norm_num)

example : ∃ c : ℝ → ℝ, HasDerivAt c (contract (fun _ _ => 0) (diag 1 2 3)) 0 := ⟨fun _ => 0, by
  have : contract (fun _ _ => 0) (diag 1 2 3) = 0 := by simp [contract_eq]
  rw [this]; exact hasDerivAt_const _ _⟩

/-- The correction for zero wave vector from a point charge with screening: the matrix is the strain derivative, for fixed numbers of
neighbouring cells. -/
theorem C92_probe (R : Mat ℝ) (hR : det R ≠ 0) (e : Mat ℝ) (N : Fin 3 → Nat) (omega : ℝ) :
    HasDerivAt (fun t => probeCorr |det (strained R e t)| (probeE N omega (strained R e t)))
      (contract (probeCorrRRT |det R| (probeE N omega R) (probeRRT N omega R)) e) 0 := by
  classical
  have hrsq : ∀ (M : Mat ℝ) (v : V3 ℝ), metricLengthSq (mulMM (transpose M) M) v = dot (mulMV M v) (mulMV M v) := by
    intro M v; simp only [metricLengthSq, mulMM, transpose, dot, mulMV]; ring
  have hE : HasDerivAt (fun t => probeE N omega (strained R e t)) (contract (probeRRT N omega R) e) 0 := by
    have hsum : contract (probeRRT N omega R) e = ∑ iR ∈ probeCells N, contract (fun a b =>
        let rSq := metricLengthSq (mulMM (transpose R) R) (toR iR)
        if rSq = 0 then 0 else
          -(0.5 * (Smear.erfc (omega * sqrt rSq) / sqrt rSq + 2 / sqrt π * omega * exp (-(omega * omega) * rSq)) / rSq
            * outer (mulMV R (toR iR)) (mulMV R (toR iR)) a b)) e := by
      rw [← contract_sum]; rfl
    rw [hsum]
    refine HasDerivAt.fun_sum fun iR _ => ?_
    simp only [hrsq]
    have hd : HasDerivAt (fun t => dot (mulMV (strained R e t) (toR iR)) (mulMV (strained R e t) (toR iR)))
        (2 * contract (outer (mulMV R (toR iR)) (mulMV R (toR iR))) e) 0 := by
      have hm : ∀ k, HasDerivAt (fun t => mulMV (strained R e t) (toR iR) k) (mulMV e (mulMV R (toR iR)) k) 0 := by
        intro k
        have e1 : (fun t => mulMV (strained R e t) (toR iR) k) = fun t => mulMV R (toR iR) k + t * mulMV e (mulMV R (toR iR)) k := by
          funext t; simp only [mulMV, strained]; ring
        rw [e1]
        refine (((hasDerivAt_id (0 : ℝ)).mul_const _).const_add _).congr_deriv ?_
        simp
      refine ((((hm 0).mul (hm 0)).add ((hm 1).mul (hm 1))).add ((hm 2).mul (hm 2))).congr_deriv ?_
      simp only [strained_zero, contract_eq, outer]
      simp only [mulMV]; ring
    by_cases hz : toR iR = 0
    · have h0 : ∀ M : Mat ℝ, dot (mulMV M (toR iR)) (mulMV M (toR iR)) = 0 := by intro M; rw [hz]; simp [dot, mulMV]
      simp only [h0, if_true]
      refine (hasDerivAt_const _ _).congr_deriv ?_
      simp [contract_eq]
    · have hne : ∀ M : Mat ℝ, det M ≠ 0 → dot (mulMV M (toR iR)) (mulMV M (toR iR)) ≠ 0 := by
        intro M hM h
        have h1 := dot_self_zero _ h
        refine hz (Matrix.mulVec_injective_of_isUnit ((Matrix.isUnit_iff_isUnit_det _).2 (by rw [← det_eq]; exact hM.isUnit) : IsUnit (Matrix.of M)) ?_)
        rw [← mulMV_eq, ← mulMV_eq, h1]
        funext k; simp [mulMV]
      have hR0 := hne R hR
      have hpos : 0 < dot (mulMV R (toR iR)) (mulMV R (toR iR)) := lt_of_le_of_ne (dot_self_nonneg _) (Ne.symm hR0)
      have hev : (fun t => if dot (mulMV (strained R e t) (toR iR)) (mulMV (strained R e t) (toR iR)) = 0 then 0 else
            0.5 * Smear.erfc (omega * sqrt (dot (mulMV (strained R e t) (toR iR)) (mulMV (strained R e t) (toR iR)))) /
              sqrt (dot (mulMV (strained R e t) (toR iR)) (mulMV (strained R e t) (toR iR)))) =ᶠ[𝓝 0]
          fun t => 0.5 * Smear.erfc (omega * sqrt (dot (mulMV (strained R e t) (toR iR)) (mulMV (strained R e t) (toR iR)))) /
              sqrt (dot (mulMV (strained R e t) (toR iR)) (mulMV (strained R e t) (toR iR))) := by
        filter_upwards [det_near R hR e] with t ht
        rw [if_neg (hne _ ht)]
      simp only [if_neg hR0]
      have h0 : dot (mulMV (strained R e 0) (toR iR)) (mulMV (strained R e 0) (toR iR)) = dot (mulMV R (toR iR)) (mulMV R (toR iR)) := by rw [strained_zero]
      have hs := hd.sqrt (by rw [h0]; exact hR0)
      have he := (erfc_scaled_deriv omega (sqrt (dot (mulMV (strained R e 0) (toR iR)) (mulMV (strained R e 0) (toR iR))))).comp (0 : ℝ) hs
      have hk := (he.const_mul 0.5).div hs (by rw [h0]; exact (sqrt_pos.2 hpos).ne')
      refine (HasDerivAt.congr_of_eventuallyEq hk hev).congr_deriv ?_
      have hsc : contract (fun a b => -(0.5 * (Smear.erfc (omega * sqrt (dot (mulMV R (toR iR)) (mulMV R (toR iR)))) / sqrt (dot (mulMV R (toR iR)) (mulMV R (toR iR)))
          + 2 / sqrt π * omega * exp (-(omega * omega) * dot (mulMV R (toR iR)) (mulMV R (toR iR)))) / dot (mulMV R (toR iR)) (mulMV R (toR iR))
            * outer (mulMV R (toR iR)) (mulMV R (toR iR)) a b)) e
          = -(0.5 * (Smear.erfc (omega * sqrt (dot (mulMV R (toR iR)) (mulMV R (toR iR)))) / sqrt (dot (mulMV R (toR iR)) (mulMV R (toR iR)))
          + 2 / sqrt π * omega * exp (-(omega * omega) * dot (mulMV R (toR iR)) (mulMV R (toR iR)))) / dot (mulMV R (toR iR)) (mulMV R (toR iR)))
            * contract (outer (mulMV R (toR iR)) (mulMV R (toR iR))) e := by
        rw [← contract_scale]; congr 1; funext a b; simp only [scale]; ring
      rw [hsc]
      simp only [Function.comp, h0]
      generalize contract (outer (mulMV R (toR iR)) (mulMV R (toR iR))) e = c
      generalize dot (mulMV R (toR iR)) (mulMV R (toR iR)) = x at *
      have hsx := sqrt_pos.2 hpos
      have hx : x = sqrt x * sqrt x := (mul_self_sqrt hpos.le).symm
      have hsp := sqrt_pos.2 pi_pos
      have hexp : exp (-(omega * omega) * x) = exp (-(omega * sqrt x) ^ 2) := by
        congr 1; rw [mul_pow, sq_sqrt hpos.le]; ring
      rw [hexp]
      generalize exp (-(omega * sqrt x) ^ 2) = E
      generalize Smear.erfc (omega * sqrt x) = F
      generalize sqrt x = y at *
      subst hx
      field_simp
      ring
  have h := ((absdet_deriv R hR e).const_mul (-2)).mul hE
  refine h.congr_deriv ?_
  have e1 : probeCorrRRT |det R| (probeE N omega R) (probeRRT N omega R) = scale (-2 * |det R|) fun a b => probeRRT N omega R a b
      + scale (probeE N omega R) (diag 1 1 1) a b := by
    funext a b; simp only [probeCorrRRT, scale]; ring
  rw [e1, contract_scale, contract_add, contract_scale, contract_id]
  simp only [strained_zero]
  ring

/-! ### Disagreements -/

/-- A pair density with a single entry. -/
def single (j : Nat) : Nat → ℂ := fun i => if i = j then 1 else 0

theorem sum_single (n j : Nat) (hj : j < n) (f : Nat → ℝ) : ∑ i ∈ Finset.range n, f i * Complex.normSq (single j i) = f j := by
  rw [Finset.sum_eq_single_of_mem j (Finset.mem_range.2 hj) (fun i _ hi => by simp [single, hi])]
  simp [single]

theorem exLatticeGradient_single (R : Mat ℝ) (S : Box.Size) (grad : (Fin 3 → Int) → Mat ℝ) (V : Mat ℝ) (thr : ℝ) (kDiff : V3 ℝ) (j : Nat) (hj : j < Box.nr S) (a b : Fin 3) :
    exLatticeGradient R S grad V thr kDiff (single j) a b = |det R| * (grad (ofIV (Box.gStart S j)) a b
      + open Classical in if dot kDiff kDiff < thr ∧ j = 0 then V a b else 0) := by
  classical
  rw [exLatticeGradient, sum_single _ _ hj (fun i => grad (ofIV (Box.gStart S i)) a b)]
  congr 2
  by_cases h : dot kDiff kDiff < thr
  · rw [if_pos h]
    by_cases h2 : j = 0
    · rw [if_pos ⟨h, h2⟩, h2]; simp [single]
    · rw [if_neg (fun h => h2 h.2)]; simp [single, Ne.symm h2]
  · rw [if_neg h, if_neg (fun hh => h hh.1)]

theorem cube_strained_det (a t : ℝ) : det (strained (cube a) (diag 1 1 1) t) = (a * (1 + t)) ^ 3 := by rw [cube_strained, cube_det]

/-- With an offset that is a nonzero reciprocal lattice vector (two k-points that differ by one) the energy uses the value at zero
wave vector for one entry of the grid, but its derivative is left out of the matrix. -/
theorem C92_offset_violation : ∃ (R e : Mat ℝ) (S : Box.Size) (kDiff : V3 ℝ) (X : Nat → ℂ), det R ≠ 0 ∧ S.Pos ∧ kDiff = vec 1 0 0 ∧
    ∀ thr, 0 < thr → thr < 1 →
    ¬ HasDerivAt (fun t => ∑ i ∈ Finset.range (Box.nr S),
        exFactor (exSphere (exRc none |det (strained R e t)|)) (exSphereVzero (exRc none |det (strained R e t)|)) thr
          (Basis.GGT (strained R e t)) kDiff (ofIV (Box.gStart S i)) * Complex.normSq (X i))
      (contract (exLatticeGradient R S (exGrad (exSphereGrad (exRc none |det R|)) (exSphereLn (exRc none |det R|)) thr R kDiff)
        (exSphereVzeroRRT 0 (exRc none |det R|)) thr kDiff X) e / |det R|) 0 := by
  have hdet : det (cube 1) ≠ 0 := by rw [cube_det]; norm_num
  refine ⟨cube 1, diag 1 1 1, ⟨4, 1, 1⟩, vec 1 0 0, single 3, hdet, ⟨by norm_num, by norm_num, by norm_num⟩, rfl, ?_⟩
  intro thr ht ht1 hd
  have hst : Box.gStart ⟨4, 1, 1⟩ 3 = ⟨-1, 0, 0⟩ := by decide
  have hj : 3 < Box.nr ⟨4, 1, 1⟩ := by decide
  have hpk : plusK (ofIV (Box.gStart ⟨4, 1, 1⟩ 3)) (vec 1 0 0) = 0 := by
    rw [hst]; funext k
    match k with | 0 | 1 | 2 => simp [plusK, toR, ofIV, vec]
  have hg0 : ∀ M : Mat ℝ, gsq M (plusK (ofIV (Box.gStart ⟨4, 1, 1⟩ 3)) (vec 1 0 0)) = 0 := by
    intro M; rw [hpk]; simp [gsq, metricLengthSq]
  have hkk : ¬ dot (vec 1 0 0 : V3 ℝ) (vec 1 0 0) < thr := by simp [dot, vec]; linarith
  have hz : contract (exLatticeGradient (cube 1) ⟨4, 1, 1⟩ (exGrad (exSphereGrad (exRc none |det (cube 1)|)) (exSphereLn (exRc none |det (cube 1)|)) thr (cube 1) (vec 1 0 0))
        (exSphereVzeroRRT 0 (exRc none |det (cube 1)|)) thr (vec 1 0 0) (single 3)) (diag 1 1 1) / |det (cube 1)| = 0 := by
    have : exLatticeGradient (cube 1) ⟨4, 1, 1⟩ (exGrad (exSphereGrad (exRc none |det (cube 1)|)) (exSphereLn (exRc none |det (cube 1)|)) thr (cube 1) (vec 1 0 0))
        (exSphereVzeroRRT 0 (exRc none |det (cube 1)|)) thr (vec 1 0 0) (single 3) = fun _ _ => 0 := by
      funext a b
      rw [exLatticeGradient_single _ _ _ _ _ _ _ hj, if_neg (fun h => hkk h.1)]
      simp only [exGrad, gsq_cart, hg0, if_pos ht]
      ring
    rw [this]; simp [contract_eq]
  rw [hz] at hd
  simp only [sum_single _ _ hj, exFactor, hg0, if_pos ht] at hd
  have hr := exRc_deriv (cube 1) hdet (diag 1 1 1) 1 one_pos
  simp only [one_mul] at hr
  have h2 : HasDerivAt (fun t => exSphereVzero (exRc none |det (strained (cube 1) (diag 1 1 1) t)|)) _ 0 := (hr.const_mul (2 * π)).mul hr
  have := h2.unique hd
  have hpos := exRc_pos (cube 1) hdet 1 one_pos
  simp only [one_mul] at hpos
  have htr : trace (diag 1 1 1 : Mat ℝ) = 3 := by simp [trace, diag, vec]; norm_num
  simp only [strained_zero, htr] at this
  have hpi := pi_pos
  have hsq : 0 < π * exRc none |det (cube 1)| * exRc none |det (cube 1)| := by positivity
  nlinarith

/-- With a fixed truncation radius (no regularization) the matrix still contains the change of a radius that follows the volume. -/
theorem C92_fixed_violation : ∃ (R e : Mat ℝ) (S : Box.Size) (X : Nat → ℂ), det R ≠ 0 ∧ S.Pos ∧ ∀ Rc thr, 0 < Rc → 0 < thr →
    ¬ HasDerivAt (fun t => ∑ i ∈ Finset.range (Box.nr S),
        exFactor (exSphere (exRc (some Rc) |det (strained R e t)|)) (exSphereVzero (exRc (some Rc) |det (strained R e t)|)) thr
          (Basis.GGT (strained R e t)) 0 (ofIV (Box.gStart S i)) * Complex.normSq (X i))
      (contract (exLatticeGradient R S (exGrad (exSphereGrad (exRc (some Rc) |det R|)) (exSphereLn (exRc (some Rc) |det R|)) thr R 0)
        (exSphereVzeroRRT 0 (exRc (some Rc) |det R|)) thr 0 X) e / |det R|) 0 := by
  have hdet : det (cube 1) ≠ 0 := by rw [cube_det]; norm_num
  refine ⟨cube 1, diag 1 1 1, ⟨1, 1, 1⟩, single 0, hdet, ⟨by norm_num, by norm_num, by norm_num⟩, ?_⟩
  intro Rc thr hRc ht hd
  have hst : Box.gStart ⟨1, 1, 1⟩ 0 = ⟨0, 0, 0⟩ := by decide
  have hj : 0 < Box.nr ⟨1, 1, 1⟩ := by decide
  have hpk : plusK (ofIV (Box.gStart ⟨1, 1, 1⟩ 0)) 0 = 0 := by
    rw [hst]; funext k
    match k with | 0 | 1 | 2 => simp [plusK, toR, ofIV, vec]
  have hg0 : ∀ M : Mat ℝ, gsq M (plusK (ofIV (Box.gStart ⟨1, 1, 1⟩ 0)) 0) = 0 := by
    intro M; rw [hpk]; simp [gsq, metricLengthSq]
  have hkk : dot (0 : V3 ℝ) 0 < thr := by simp [dot]; exact ht
  have hz : contract (exLatticeGradient (cube 1) ⟨1, 1, 1⟩ (exGrad (exSphereGrad (exRc (some Rc) |det (cube 1)|)) (exSphereLn (exRc (some Rc) |det (cube 1)|)) thr (cube 1) 0)
        (exSphereVzeroRRT 0 (exRc (some Rc) |det (cube 1)|)) thr 0 (single 0)) (diag 1 1 1) / |det (cube 1)| = 4 * π * Rc * Rc := by
    have : exLatticeGradient (cube 1) ⟨1, 1, 1⟩ (exGrad (exSphereGrad (exRc (some Rc) |det (cube 1)|)) (exSphereLn (exRc (some Rc) |det (cube 1)|)) thr (cube 1) 0)
        (exSphereVzeroRRT 0 (exRc (some Rc) |det (cube 1)|)) thr 0 (single 0) = scale |det (cube 1)| (exSphereVzeroRRT 0 Rc) := by
      funext a b
      rw [exLatticeGradient_single _ _ _ _ _ _ _ hj, if_pos ⟨hkk, rfl⟩]
      simp only [exGrad, gsq_cart, hg0, if_pos ht, scale, exRc]
      ring
    rw [this, contract_scale, exSphereVzeroRRT, contract_scale, contract_id, mul_zero, Cavity.erfc_zero, cube_det]
    have htr : trace (diag 1 1 1 : Mat ℝ) = 3 := by simp [trace, diag, vec]; norm_num
    rw [htr]; norm_num; ring
  rw [hz] at hd
  simp only [sum_single _ _ hj, exFactor, hg0, if_pos ht, exRc] at hd
  have := (hasDerivAt_const (0 : ℝ) (exSphereVzero Rc)).unique hd
  have hpi := pi_pos
  have hsq : 0 < π * Rc * Rc := by positivity
  linarith

/-- The screening of the slab kernel does not enter the matrix: for a uniform pair density and stretching across the slab the result
is wrong for every screening. -/
theorem C92_slab_screened_violation : ∃ (R e : Mat ℝ) (S : Box.Size) (X : Nat → ℂ), det R ≠ 0 ∧ Perp R 2 ∧ KeepsPerp R e 2 ∧ S.Pos ∧ S.s2 % 2 = 0 ∧
    ∀ (omega thr : ℝ) (screen : ℝ → Int → ℝ → ℝ), 0 < omega → 0 < thr →
    ¬ HasDerivAt (fun t => ∑ j ∈ Finset.range (Box.nr S),
        exSlab 2 (exHlfL (strained R e t) 2) (screen t)
          (exSlabVzero (exHlfL (strained R e t) 2) (axisSum S.s2 (exHlfL (strained R e t) 2) (erfPlane0 omega)) 0) thr
          (Basis.GGT (strained R e t)) 0 (ofIV (Box.gStart S j)) * Complex.normSq (X j))
      (contract (exLatticeGradient R S (exSlabGrad 2 (exHlfL R 2) (zHatOuter R 2) thr R 0)
        (exSlabVzeroRRT (exHlfL R 2) (zHatOuter R 2) fun _ _ => 0) thr 0 X) e / |det R|) 0 := by
  have hdet : det (cube 1) ≠ 0 := by rw [cube_det]; norm_num
  refine ⟨cube 1, diag 0 0 1, ⟨1, 1, 2⟩, single 0, hdet, cube_perp 1 2, ?_, ⟨by norm_num, by norm_num, by norm_num⟩, rfl, ?_⟩
  · intro j hj
    have : ∀ t, dot (column (strained (cube 1) (diag 0 0 1) t) 2) (column (strained (cube 1) (diag 0 0 1) t) j) = 0 := by
      intro t
      match j with
      | 2 => exact absurd rfl hj
      | 0 | 1 => simp [dot, column, vec, strained, cube, diag]
    simp only [this]
    exact hasDerivAt_const _ _
  intro omega thr screen ho ht hd
  have hst : Box.gStart ⟨1, 1, 2⟩ 0 = ⟨0, 0, 0⟩ := by decide
  have hj : 0 < Box.nr ⟨1, 1, 2⟩ := by decide
  have hpk : plusK (ofIV (Box.gStart ⟨1, 1, 2⟩ 0)) 0 = 0 := by
    rw [hst]; funext k
    match k with | 0 | 1 | 2 => simp [plusK, toR, ofIV, vec]
  have hg0 : ∀ M : Mat ℝ, gsq M (plusK (ofIV (Box.gStart ⟨1, 1, 2⟩ 0)) 0) = 0 := by
    intro M; rw [hpk]; simp [gsq, metricLengthSq]
  have hkk : dot (0 : V3 ℝ) 0 < thr := by simp [dot]; exact ht
  have hh0 : exHlfL (cube 1) 2 = 1 / 2 := by
    simp [exHlfL, Basis.length, column, vec, cube, diag]; norm_num
  have hzz : contract (zHatOuter (cube 1) 2) (diag 0 0 1) = 1 := by
    simp [contract_eq, zHatOuter, outer, Basis.length, column, vec, cube, diag]
  have hz : contract (exLatticeGradient (cube 1) ⟨1, 1, 2⟩ (exSlabGrad 2 (exHlfL (cube 1) 2) (zHatOuter (cube 1) 2) thr (cube 1) 0)
        (exSlabVzeroRRT (exHlfL (cube 1) 2) (zHatOuter (cube 1) 2) fun _ _ => 0) thr 0 (single 0)) (diag 0 0 1) / |det (cube 1)| = -π := by
    have : exLatticeGradient (cube 1) ⟨1, 1, 2⟩ (exSlabGrad 2 (exHlfL (cube 1) 2) (zHatOuter (cube 1) 2) thr (cube 1) 0)
        (exSlabVzeroRRT (exHlfL (cube 1) 2) (zHatOuter (cube 1) 2) fun _ _ => 0) thr 0 (single 0) = scale (|det (cube 1)| * (-4 * π * exHlfL (cube 1) 2 ^ 2)) (zHatOuter (cube 1) 2) := by
      funext a b
      rw [exLatticeGradient_single _ _ _ _ _ _ _ hj, if_pos ⟨hkk, rfl⟩]
      simp only [exSlabGrad, gsq_cart, hg0, if_neg (not_lt.2 ht.le), scale, exSlabVzeroRRT]
      ring
    rw [this, contract_scale, hzz, cube_det, hh0]; norm_num; ring
  rw [hz] at hd
  have hax : ∀ h, axisSum 2 h (erfPlane0 omega) = 2 * π * h * (erfPlane0 omega 0 + erfPlane0 omega h) := by
    intro h; simp [axisSum]
  simp only [sum_single _ _ hj, exSlab, hg0, if_pos ht, exSlabVzero, hax] at hd
  have hdh := hlfL_deriv (cube 1) hdet (diag 0 0 1) 2
  rw [hzz] at hdh
  simp only [← exHlfL_eq] at hdh
  have herf : ∀ z, HasDerivAt (erfPlane0 omega) (erf (omega * z)) z := by
    intro z
    have hsp := sqrt_pos.2 pi_pos
    have h1 := (((hasDerivAt_id z).const_mul (-omega * omega)).mul (hasDerivAt_id z)).exp.const_mul (1 / (omega * sqrt π))
    have h2 := (hasDerivAt_id z).mul ((erfc_scaled_deriv omega z).const_sub 1)
    refine (h1.add h2).congr_deriv ?_
    have hex : exp (-omega * omega * z * z) = exp (-(omega * z) ^ 2) := by congr 1; ring
    simp only [Pi.mul_apply, id, hex, erf]
    field_simp
    ring
  have hs0 : exHlfL (strained (cube 1) (diag 0 0 1) 0) 2 = 1 / 2 := by rw [strained_zero, hh0]
  have hcomp : HasDerivAt (fun t => erfPlane0 omega (exHlfL (strained (cube 1) (diag 0 0 1) t) 2)) (erf (omega * (1 / 2)) * (1 / 2)) 0 := by
    have := HasDerivAt.comp (0 : ℝ) (herf (exHlfL (strained (cube 1) (diag 0 0 1) 0) 2)) hdh
    refine this.congr_deriv ?_
    rw [hs0, hh0]; ring
  have hall := (((hdh.const_mul (2 * π)).mul (hcomp.const_add (erfPlane0 omega 0))).add ((hdh.pow 2).const_mul (-2 * π))).add_const (0 : ℝ)
  have := hall.unique hd
  simp only [strained_zero, hh0, mul_one] at this
  have hpi := pi_pos
  have herf0 : ∀ x : ℝ, 0 ≤ x → 0 ≤ erf x := by
    intro x hx
    have := GGA.erfc_le_one hx
    simp only [erf]; linarith
  have hE := herf0 (omega * (1 / 2)) (by positivity)
  have hp0 : 0 < erfPlane0 omega 0 := by
    have hsp := sqrt_pos.2 pi_pos
    simp only [erfPlane0, mul_zero, exp_zero, zero_mul, add_zero, mul_one]
    positivity
  have hp1 : 0 < erfPlane0 omega (1 / 2) := by
    have hsp := sqrt_pos.2 pi_pos
    simp only [erfPlane0]
    have : 0 < 1 / (omega * sqrt π) * exp (-omega * omega * (1 / 2) * (1 / 2)) := by positivity
    nlinarith
  have h5 : 0 < π * (erfPlane0 omega 0 + erfPlane0 omega (1 / 2)) := by positivity
  have h6 : 0 ≤ π * erf (omega * (1 / 2)) := by positivity
  norm_num at this
  nlinarith

/-- The sum used for the transform across the slab integrates a constant exactly on an even grid, and never on an odd one. -/
theorem C92_axis_partial (S : Nat) (h : ℝ) (hS : 2 ≤ S) (hh : 0 < h) : axisSum S h (fun _ => 1) = 2 * π * ∫ _z in (-h)..h, (1 : ℝ) ↔ S % 2 = 0 := by
  have hpi := pi_pos
  have hS0 : (0 : ℝ) < S := by exact_mod_cast (by omega : 0 < S)
  have hn : ((S / 2 + 1 - 2 : Nat) : ℝ) = ((S / 2 : Nat) : ℝ) - 1 := by
    rw [show S / 2 + 1 - 2 = S / 2 - 1 by omega, Nat.cast_sub (by omega)]; simp
  have e1 : axisSum S h (fun _ => 1) = 2 * π * (2 * h / S * (2 * ((S / 2 : Nat) : ℝ))) := by
    simp only [axisSum, Finset.sum_const, Finset.card_range, nsmul_eq_mul, mul_one, hn]
    ring
  rw [e1]
  simp only [intervalIntegral.integral_const, smul_eq_mul, mul_one]
  constructor
  · intro heq
    have h2 : 2 * ((S / 2 : Nat) : ℝ) = S := by
      have := mul_left_cancel₀ (by positivity : 2 * π ≠ 0) heq
      field_simp at this
      linarith
    have h3 : 2 * (S / 2) = S := by exact_mod_cast h2
    omega
  · intro hev
    have h3 : 2 * (S / 2) = S := by omega
    have h2 : 2 * ((S / 2 : Nat) : ℝ) = S := by exact_mod_cast h3
    rw [h2]
    field_simp
    ring

/-! ### Look-up -/

section lookup
open Box

/-- A kernel stored for the half of the grid is used for every point of the full grid with the value of an even, periodic function. -/
theorem C92_real_index (S : Size) (hS : S.Pos) (f : IV → ℝ) (kernel : Nat → ℝ) (v : IV) (hv : ValidG S v)
    (hper : ∀ u v : IV, (S.s0 : Int) ∣ u.x - v.x → (S.s1 : Int) ∣ u.y - v.y → (S.s2 : Int) ∣ u.z - v.z → f u = f v)
    (heven : ∀ v : IV, f ⟨-v.x, -v.y, -v.z⟩ = f v) (hk : ∀ i < nG S, kernel i = f (hStart S i)) :
    0 ≤ realIndex S v ∧ realIndex S v < nG S ∧ kernel (realIndex S v).toNat = f v := by
  obtain ⟨u, hu, hidx, hc⟩ := realIndex_valid S v hv
  obtain ⟨h0, h1⟩ := halfGindex_range S u hu
  have hlt : (realIndex S v).toNat < nG S := by rw [hidx]; omega
  have hst : hStart S (realIndex S v).toNat = u := by
    have hval := hStart_valid S hS _ hlt
    have hi := hStart_index S hS _ hlt
    refine halfGindex_inj S _ _ hval hu ?_
    rw [hi, hidx]; omega
  refine ⟨by rw [hidx]; exact h0, by rw [hidx]; exact h1, ?_⟩
  rw [hk _ hlt, hst]
  rcases hc with ⟨hx, hy, hz⟩ | ⟨hx, hy, hz⟩
  · exact hper _ _ hx hy (by rw [hz]; simp)
  · rw [← heven v]
    exact hper _ _ (by simpa using hx) (by simpa using hy) (by rw [hz]; simp)

/-- The kernel of the supercell is used at the wave vector that belongs to a point of the grid of the unit cell and a difference of
two k-points: nothing is folded back, so that a function that is even, but not periodic, is reproduced. -/
theorem C92_extract (S : Size) (super : Mat Int) (hdet : ∀ k, ∃ j, super j k ≠ 0) (f : IV → ℝ) (kernel : Nat → ℝ) (v : IV) (hv : ValidG S v)
    (dk : V3 ℝ) (dkSuper : Fin 3 → Int) (hdk : ∀ j, |dk j| ≤ 1 / 2) (hround : ∀ k, (dkSuper k : ℝ) = mulVM dk (fun i j => (super i j : ℝ)) k)
    (Ssuper : Size) (hSs : superS (vec S.s0 S.s1 S.s2) super = vec Ssuper.s0 Ssuper.s1 Ssuper.s2)
    (heven : ∀ v : IV, f ⟨-v.x, -v.y, -v.z⟩ = f v) (hk : ∀ i < nG Ssuper, kernel i = f (hStart Ssuper i)) :
    0 ≤ extractIndex Ssuper super dkSuper v ∧ extractIndex Ssuper super dkSuper v < nG Ssuper ∧
      kernel (extractIndex Ssuper super dkSuper v).toNat
        = f ⟨mulVM (ofIV v) super 0 + dkSuper 0, mulVM (ofIV v) super 1 + dkSuper 1, mulVM (ofIV v) super 2 + dkSuper 2⟩ := by
  have hbound : ∀ k, 2 * |mulVM (ofIV v) super k + dkSuper k| < (superS (vec S.s0 S.s1 S.s2) super k : Int) := by
    intro k
    refine lt_of_lt_of_le ?_ (superS_ge _ super k)
    have hG : ∀ j, (|ofIV v j| : Int) ≤ ((vec S.s0 S.s1 S.s2 : Fin 3 → Nat) j : Int) / 2 := by
      intro j
      obtain ⟨⟨x1, x2⟩, ⟨y1, y2⟩, ⟨z1, z2⟩⟩ := hv
      match j with
      | 0 => simp only [ofIV, vec]; rw [abs_le]; constructor <;> omega
      | 1 => simp only [ofIV, vec]; rw [abs_le]; constructor <;> omega
      | 2 => simp only [ofIV, vec]; rw [abs_le]; constructor <;> omega
    have hreal : ((mulVM (ofIV v) super k + dkSuper k : Int) : ℝ) = ∑ j, ((ofIV v j : ℝ) + dk j) * (super j k : ℝ) := by
      push_cast
      rw [hround k, Fin.sum_univ_three]
      simp only [mulVM]; push_cast; ring
    have hterm : ∀ j, |((ofIV v j : ℝ) + dk j) * (super j k : ℝ)| ≤ (((vec S.s0 S.s1 S.s2 : Fin 3 → Nat) j : Int) / 2 : Int) * |(super j k : ℝ)| + 1 / 2 * |(super j k : ℝ)| := by
      intro j
      rw [abs_mul, ← add_mul]
      refine mul_le_mul_of_nonneg_right ?_ (abs_nonneg _)
      refine (abs_add_le _ _).trans (add_le_add ?_ (hdk j))
      have := hG j
      have h2 : ((|ofIV v j| : Int) : ℝ) ≤ ((((vec S.s0 S.s1 S.s2 : Fin 3 → Nat) j : Int) / 2 : Int) : ℝ) := by exact_mod_cast this
      rwa [Int.cast_abs] at h2
    have hpos : 0 < ∑ j, |(super j k : ℝ)| := by
      obtain ⟨j, hj⟩ := hdet k
      exact Finset.sum_pos' (fun j _ => abs_nonneg _) ⟨j, Finset.mem_univ j, abs_pos.2 (by exact_mod_cast hj)⟩
    have hsum : (2 : ℝ) * |((mulVM (ofIV v) super k + dkSuper k : Int) : ℝ)|
        < 2 * ∑ j, (((((vec S.s0 S.s1 S.s2 : Fin 3 → Nat) j : Int) / 2 : Int) : ℝ) + 1) * |(super j k : ℝ)| := by
      rw [hreal]
      have h1 := (Finset.abs_sum_le_sum_abs (fun j => ((ofIV v j : ℝ) + dk j) * (super j k : ℝ)) Finset.univ).trans (Finset.sum_le_sum fun j _ => hterm j)
      rw [Finset.sum_add_distrib, ← Finset.mul_sum] at h1
      have e2 : ∑ j, (((((vec S.s0 S.s1 S.s2 : Fin 3 → Nat) j : Int) / 2 : Int) : ℝ) + 1) * |(super j k : ℝ)|
          = ∑ j, ((((vec S.s0 S.s1 S.s2 : Fin 3 → Nat) j : Int) / 2 : Int) : ℝ) * |(super j k : ℝ)| + ∑ j, |(super j k : ℝ)| := by
        rw [← Finset.sum_add_distrib]; exact Finset.sum_congr rfl fun j _ => by ring
      rw [e2]
      linarith
    have := hsum
    have h3 : ((2 * |mulVM (ofIV v) super k + dkSuper k| : Int) : ℝ) < ((2 * ∑ j, (((vec S.s0 S.s1 S.s2 : Fin 3 → Nat) j : Int) / 2 + 1) * |super j k| : Int) : ℝ) := by
      push_cast at this ⊢
      exact this
    exact_mod_cast h3
  rw [hSs] at hbound
  have hx := hbound 0
  have hy := hbound 1
  have hz := hbound 2
  simp only [vec] at hx hy hz
  have hSp : Ssuper.Pos := by
    refine ⟨?_, ?_, ?_⟩
    · have := abs_nonneg (mulVM (ofIV v) super 0 + dkSuper 0); omega
    · have := abs_nonneg (mulVM (ofIV v) super 1 + dkSuper 1); omega
    · have := abs_nonneg (mulVM (ofIV v) super 2 + dkSuper 2); omega
  obtain ⟨u, hu, hc, hidx⟩ := realIndex_inside Ssuper
    ⟨mulVM (ofIV v) super 0 + dkSuper 0, mulVM (ofIV v) super 1 + dkSuper 1, mulVM (ofIV v) super 2 + dkSuper 2⟩ hx hy hz
  have hidx' : extractIndex Ssuper super dkSuper v = halfGindex Ssuper u := hidx
  obtain ⟨h0, h1⟩ := halfGindex_range Ssuper u hu
  have hlt : (extractIndex Ssuper super dkSuper v).toNat < nG Ssuper := by rw [hidx']; omega
  have hst : hStart Ssuper (extractIndex Ssuper super dkSuper v).toNat = u := by
    have hval := hStart_valid Ssuper hSp _ hlt
    have hi := hStart_index Ssuper hSp _ hlt
    refine halfGindex_inj Ssuper _ _ hval hu ?_
    rw [hi, hidx']; omega
  refine ⟨by rw [hidx']; exact h0, by rw [hidx']; exact h1, ?_⟩
  rw [hk _ hlt, hst]
  rcases hc with rfl | rfl
  · rfl
  · exact heven _

/-- With an offset, the kernel is used at the shifted point as long as that point is on the grid. -/
theorem C92_trans_partial (S : Size) (hS : S.Pos) (f : IV → ℝ) (kernel : Nat → ℝ) (offset v : IV)
    (hv : ValidG S ⟨v.x - offset.x, v.y - offset.y, v.z - offset.z⟩) (hk : ∀ i < nr S, kernel i = f (gStart S i)) :
    0 ≤ transIndex S offset v ∧ transIndex S offset v < nr S ∧
      kernel (transIndex S offset v).toNat = f ⟨v.x - offset.x, v.y - offset.y, v.z - offset.z⟩ := by
  have hidx : transIndex S offset v = fullGindex S ⟨v.x - offset.x, v.y - offset.y, v.z - offset.z⟩ := rfl
  obtain ⟨h0, h1⟩ := fullGindex_range S _ hv
  have hlt : (transIndex S offset v).toNat < nr S := by rw [hidx]; omega
  have hst : gStart S (transIndex S offset v).toNat = ⟨v.x - offset.x, v.y - offset.y, v.z - offset.z⟩ := by
    have hval := gStart_valid S hS _ hlt
    have hi := gStart_index S hS _ hlt
    refine fullGindex_inj S _ _ hval hv ?_
    rw [hi, hidx]; omega
  exact ⟨by rw [hidx]; exact h0, by rw [hidx]; exact h1, by rw [hk _ hlt, hst]⟩

/-- At the edge of the grid the kernel of another wave vector is used, and for a direction with two points an entry outside the
kernel is read. -/
theorem C92_trans_violation :
    (∃ (S : Size) (offset v : IV) (f : IV → ℝ) (kernel : Nat → ℝ), S.Pos ∧ ValidG S v ∧ offset = ⟨-1, 0, 0⟩ ∧ (∀ i < nr S, kernel i = f (gStart S i)) ∧
      kernel (transIndex S offset v).toNat ≠ f ⟨v.x - offset.x, v.y - offset.y, v.z - offset.z⟩) ∧
    ∃ (S : Size) (offset v : IV), S.Pos ∧ ValidG S v ∧ offset = ⟨-1, 0, 0⟩ ∧ ¬ transIndex S offset v < nr S := by
  refine ⟨⟨⟨4, 1, 1⟩, ⟨-1, 0, 0⟩, ⟨2, 0, 0⟩, fun v => v.x, fun i => ((gStart ⟨4, 1, 1⟩ i).x : ℝ), ?_, ?_, rfl, fun i _ => rfl, ?_⟩,
    ⟨⟨2, 1, 1⟩, ⟨-1, 0, 0⟩, ⟨1, 0, 0⟩, ?_, ?_, rfl, ?_⟩⟩
  · exact ⟨by norm_num, by norm_num, by norm_num⟩
  · simp [ValidG, Centred]
  · have : (transIndex ⟨4, 1, 1⟩ ⟨-1, 0, 0⟩ ⟨2, 0, 0⟩).toNat = 3 := by simp [transIndex]
    simp only [this]
    have h2 : gStart ⟨4, 1, 1⟩ 3 = ⟨-1, 0, 0⟩ := by decide
    rw [h2]; norm_num
  · exact ⟨by norm_num, by norm_num, by norm_num⟩
  · simp [ValidG, Centred]
  · simp [transIndex, nr]

/-- The hypotheses of the look-up in the supercell are met: two cells along the first direction, half a reciprocal vector. -/
example : superS (vec 4 4 4) (diag 2 1 1) = vec 12 6 6 ∧ (∀ j, |(vec (1 / 2) 0 0 : V3 ℝ) j| ≤ 1 / 2) ∧
    ∀ k, (((vec 1 0 0 : Fin 3 → Int) k : Int) : ℝ) = mulVM (vec (1 / 2) 0 0) (fun i j => ((diag 2 1 1 : Mat Int) i j : ℝ)) k := by
  refine ⟨?_, ?_, ?_⟩
  · funext k
    match k with | 0 | 1 | 2 => rfl
  · intro j
    match j with
    | 0 => simp [vec]
    | 1 | 2 => simp [vec]
  · intro k
    match k with | 0 | 1 | 2 => simp [vec, mulVM, diag]

end lookup
end
end Jdftx.CoulK
