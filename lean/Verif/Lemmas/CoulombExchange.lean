import Verif.Lemmas.CoulombSlab

/-!
# Lemmas for C91 and C92: kernels in terms of wave vectors, exchange
-/
namespace Jdftx.CoulK
noncomputable section
open M3 Ewald Real Filter Topology

theorem along_wave (R : Mat ℝ) (hR : det R ≠ 0) (i : Fin 3) (v : V3 ℝ) : along R i (wave R v) = 2 * π * v i / len (column R i) := by
  rw [along, wave_isWave R hR]

theorem across_wave (R : Mat ℝ) (hR : det R ≠ 0) (i : Fin 3) (hp : Perp R i) (v : V3 ℝ) : across R i (wave R v) = wave R (plane i v) := by
  have hl := (len_pos R hR i).ne'
  funext k
  have hs := congrFun (wave_split R i v) k
  simp only [across]
  rw [along_wave R hR, hs, wave_unit R hR i hp, ← len_sq]
  field_simp
  ring

theorem sin_int (n : Int) : sin (π * (n : ℝ)) = 0 := by rw [mul_comm]; exact sin_int_mul_pi n

theorem slabK_value (R : Mat ℝ) (hR : det R ≠ 0) (i : Fin 3) (hp : Perp R i) (v : V3 ℝ) (hv : v ≠ 0) (n : Int) (hn : v i = n) :
    slabK R i (cos (π * n)) v = slabFT (len (across R i (wave R v))) (along R i (wave R v)) (hlfL R i) := by
  have hl := len_pos R hR i
  have hh : 0 < hlfL R i := by rw [hlfL_eq]; positivity
  have hq : along R i (wave R v) * hlfL R i = π * n := by
    rw [along_wave R hR, hlfL_eq, hn]; field_simp; norm_num; ring
  have hsin : sin (along R i (wave R v) * hlfL R i) = 0 := by rw [hq]; exact sin_int n
  have hG : gsq (Basis.GGT R) v ≠ 0 := fun h => hv ((gsq_zero_iff R hR v).1 h)
  have hsp := gsq_split R hR i hp v
  have hpl : len (across R i (wave R v)) = sqrt (gsq (Basis.GGT R) (plane i v)) := by rw [across_wave R hR i hp, len, gsq_eq]
  have haxis : along R i (wave R v) ^ 2 = Basis.GGT R i i * v i * v i := by
    rw [along_wave R hR, GGT_ii R hR i hp]; ring
  have hsum : gsq (Basis.GGT R) v = sqrt (gsq (Basis.GGT R) (plane i v)) ^ 2 + along R i (wave R v) ^ 2 := by
    rw [sq_sqrt (gsq_nonneg R _), haxis]; linarith
  rw [slabK, hsp, safe_eq (gsq_nonneg R _), hpl]
  by_cases hz : sqrt (gsq (Basis.GGT R) (plane i v)) = 0
  · rw [hz] at hsum ⊢
    have hq0 : along R i (wave R v) ≠ 0 := fun h => hG (by rw [hsum, h]; ring)
    rw [slabFT_plane _ _ hq0 hh.le hsin, hq, hsum]
    simp
  · rw [slabFT_ne _ _ _ (lt_of_le_of_ne (sqrt_nonneg _) (Ne.symm hz)) hh.le hsin, hq, hsum]

theorem toR_zero (iG : Fin 3 → Int) : toR iG = 0 ↔ iG = 0 := by
  constructor
  · intro h; funext k; have := congrFun h k; simpa [toR] using this
  · intro h; subst h; funext k; simp [toR]


theorem cart_radial (R : Mat ℝ) (s : ℝ) (v : V3 ℝ) (e : Mat ℝ) :
    contract (cart (Basis.G R) (scale s (outer v v))) e = s * contract (outer (wave R v) (wave R v)) e := by
  rw [cart_scale, contract_scale, cart_outer]

/-- A kernel that is a function of the squared length, with its value at zero kept separately. -/
theorem radial_kernel (R : Mat ℝ) (hR : det R ≠ 0) (e : Mat ℝ) (v : V3 ℝ) (f : ℝ → ℝ) (f' z : ℝ)
    (hf : v ≠ 0 → HasDerivAt f f' (gsq (Basis.GGT R) v)) :
    HasDerivAt (fun t => open Classical in if gsq (Basis.GGT (strained R e t)) v ≠ 0 then f (gsq (Basis.GGT (strained R e t)) v) else z)
      ((open Classical in if gsq (Basis.GGT R) v ≠ 0 then -(2 * f') else 0) * contract (outer (wave R v) (wave R v)) e) 0 := by
  by_cases hv : v = 0
  · have h0 : ∀ M : Mat ℝ, gsq M v = 0 := by intro M; rw [hv]; simp [gsq, metricLengthSq]
    simp only [h0, ne_eq, not_true_eq_false, if_false, zero_mul]
    exact hasDerivAt_const _ _
  · have hG : gsq (Basis.GGT R) v ≠ 0 := fun h => hv ((gsq_zero_iff R hR v).1 h)
    rw [if_pos hG]
    refine (radial_deriv R hR e v f f' (hf hv)).congr_of_eventuallyEq ?_
    filter_upwards [det_near R hR e] with t ht
    rw [if_pos (fun h => hv ((gsq_zero_iff _ ht v).1 h))]

theorem gsq_pos (R : Mat ℝ) (hR : det R ≠ 0) (v : V3 ℝ) (hv : v ≠ 0) : 0 < gsq (Basis.GGT R) v :=
  lt_of_le_of_ne (gsq_nonneg R v) fun h => hv ((gsq_zero_iff R hR v).1 h.symm)


theorem outer_plane_cart (R : Mat ℝ) (hR : det R ≠ 0) (i : Fin 3) (hp : Perp R i) (a b : ℝ) (u : V3 ℝ) :
    cart (Basis.G R) (setDiag (scale a (outer (plane i u) (plane i u))) i b)
      = fun k l => scale a (outer (wave R (plane i u)) (wave R (plane i u))) k l + scale (b * Basis.GGT R i i) (zHatOuter R i) k l := by
  have hm : setDiag (scale a (outer (plane i u) (plane i u))) i b
      = fun k l => scale a (outer (plane i u) (plane i u)) k l + scale b (outer (unit i) (unit i)) k l := by
    funext k l
    simp only [setDiag, scale, outer, plane, unit]
    by_cases hk : k = i <;> by_cases hl : l = i <;> simp [hk, hl]
  rw [hm, cart_add, cart_scale, cart_outer, cart_scale, cart_outer, zz_unit R hR i hp]
  funext k l
  simp only [scale]; ring

theorem contract_add (m n e : Mat ℝ) : contract (fun k l => m k l + n k l) e = contract m e + contract n e := by
  simp only [contract_eq]; ring


/-! ### Exchange -/

theorem contract_id (e : Mat ℝ) : contract (diag 1 1 1) e = trace e := by
  simp [contract_eq, diag, vec, trace]

theorem absdet_deriv (R : Mat ℝ) (hR : det R ≠ 0) (e : Mat ℝ) : HasDerivAt (fun t => |det (strained R e t)|) (|det R| * trace e) 0 := by
  have h := det_deriv R e
  have h0 : det (strained R e 0) = det R := by rw [strained_zero]
  rcases lt_or_gt_of_ne hR with hn | hp
  · have hev : (fun t => |det (strained R e t)|) =ᶠ[𝓝 0] fun t => -det (strained R e t) := by
      filter_upwards [h.continuousAt.eventually_lt continuousAt_const (by rw [h0]; exact hn)] with t ht
      exact abs_of_neg ht
    refine (h.neg.congr_of_eventuallyEq hev).congr_deriv ?_
    rw [abs_of_neg hn]; ring
  · have hev : (fun t => |det (strained R e t)|) =ᶠ[𝓝 0] fun t => det (strained R e t) := by
      filter_upwards [continuousAt_const.eventually_lt h.continuousAt (by rw [h0]; exact hp)] with t ht
      exact abs_of_pos ht
    refine (h.congr_of_eventuallyEq hev).congr_deriv ?_
    rw [abs_of_pos hp]

/-- The radius that goes with the cube root of the volume. -/
theorem exRc_deriv (R : Mat ℝ) (hR : det R ≠ 0) (e : Mat ℝ) (nk : ℝ) (hn : 0 < nk) :
    HasDerivAt (fun t => exRc none (nk * |det (strained R e t)|)) (exRc none (nk * |det R|) / 3 * trace e) 0 := by
  have hd := ((absdet_deriv R hR e).const_mul nk).const_mul (3 / (4 * π))
  have hpos : 0 < 3 / (4 * π) * (nk * |det R|) := by have := abs_pos.2 hR; have := pi_pos; positivity
  have h := hd.rpow_const (p := (1 / 3 : ℝ)) (Or.inl (by simp only [strained_zero]; exact hpos.ne'))
  refine h.congr_deriv ?_
  simp only [strained_zero, exRc]
  have e1 : (3 / (4 * π) * (nk * |det R|)) ^ (1 / 3 - 1 : ℝ) = (3 / (4 * π) * (nk * |det R|)) ^ (1 / 3 : ℝ) / (3 / (4 * π) * (nk * |det R|)) := by
    rw [rpow_sub hpos, rpow_one]
  rw [e1]
  generalize (3 / (4 * π) * (nk * |det R|)) ^ (1 / 3 : ℝ) = Rc
  have := abs_pos.2 hR
  field_simp

theorem exRc_pos (R : Mat ℝ) (hR : det R ≠ 0) (nk : ℝ) (hn : 0 < nk) : 0 < exRc none (nk * |det R|) := by
  have := abs_pos.2 hR
  exact rpow_pos_of_pos (by have := pi_pos; positivity) _

/-- From each entry to the sum over the grid. -/
theorem exLatticeGradient_deriv (R : Mat ℝ) (hR : det R ≠ 0) (e : Mat ℝ) (S : Box.Size) (hS : S.Pos) (K : ℝ → (Fin 3 → Int) → ℝ)
    (grad : (Fin 3 → Int) → Mat ℝ) (V : Mat ℝ) (thr : ℝ) (kDiff : V3 ℝ) (X : Nat → ℂ)
    (h : ∀ i < Box.nr S, HasDerivAt (fun t => K t (ofIV (Box.gStart S i)))
      (contract (grad (ofIV (Box.gStart S i))) e + open Classical in if i = 0 ∧ dot kDiff kDiff < thr then contract V e else 0) 0) :
    HasDerivAt (fun t => ∑ i ∈ Finset.range (Box.nr S), K t (ofIV (Box.gStart S i)) * Complex.normSq (X i))
      (contract (exLatticeGradient R S grad V thr kDiff X) e / |det R|) 0 := by
  classical
  have hd : |det R| ≠ 0 := abs_ne_zero.2 hR
  have h0 : 0 ∈ Finset.range (Box.nr S) := Finset.mem_range.2 (by
    obtain ⟨a, b, c⟩ := hS
    exact Nat.mul_pos (Nat.mul_pos a b) c)
  have hV : (∑ i ∈ Finset.range (Box.nr S), (if i = 0 ∧ dot kDiff kDiff < thr then contract V e else 0) * Complex.normSq (X i))
      = if dot kDiff kDiff < thr then contract V e * Complex.normSq (X 0) else 0 := by
    rw [Finset.sum_eq_single_of_mem 0 h0 (fun i _ hi => by rw [if_neg (fun h => hi h.1), zero_mul])]
    by_cases hk : dot kDiff kDiff < thr
    · rw [if_pos ⟨rfl, hk⟩, if_pos hk]
    · rw [if_neg (fun h => hk h.2), if_neg hk, zero_mul]
  have e1 : contract (exLatticeGradient R S grad V thr kDiff X) e / |det R| = ∑ i ∈ Finset.range (Box.nr S),
      (contract (grad (ofIV (Box.gStart S i))) e + if i = 0 ∧ dot kDiff kDiff < thr then contract V e else 0) * Complex.normSq (X i) := by
    simp only [add_mul, Finset.sum_add_distrib]
    rw [hV]
    have : exLatticeGradient R S grad V thr kDiff X = scale |det R| (fun a b =>
        (fun a b => ∑ i ∈ Finset.range (Box.nr S), scale (Complex.normSq (X i)) (grad (ofIV (Box.gStart S i))) a b) a b
        + scale (if dot kDiff kDiff < thr then Complex.normSq (X 0) else 0) V a b) := by
      funext a b
      simp only [exLatticeGradient, scale]
      congr 1
      congr 1
      · exact Finset.sum_congr rfl fun i _ => mul_comm _ _
      · split <;> ring
    rw [this, contract_scale, contract_add, contract_sum]
    simp only [contract_scale]
    have e3 : ∀ i, Complex.normSq (X i) * contract (grad (ofIV (Box.gStart S i))) e = contract (grad (ofIV (Box.gStart S i))) e * Complex.normSq (X i) :=
      fun i => mul_comm _ _
    simp only [e3]
    rw [mul_div_cancel_left₀ _ hd]
    congr 1
    split <;> ring
  rw [e1]
  refine HasDerivAt.fun_sum fun i hi => ?_
  exact (h i (Finset.mem_range.1 hi)).mul_const _

theorem gsq_cart (R : Mat ℝ) (v : V3 ℝ) : dot (mulVM v (Basis.G R)) (mulVM v (Basis.G R)) = gsq (Basis.GGT R) v := (gsq_eq R v).symm

theorem contract_exGrad (R : Mat ℝ) (prefac lnDet : ℝ → ℝ) (thr : ℝ) (kDiff : V3 ℝ) (iG : Fin 3 → Int) (e : Mat ℝ) :
    contract (exGrad prefac lnDet thr R kDiff iG) e = open Classical in if gsq (Basis.GGT R) (plusK iG kDiff) < thr then 0 else
      prefac (gsq (Basis.GGT R) (plusK iG kDiff)) * contract (outer (wave R (plusK iG kDiff)) (wave R (plusK iG kDiff))) e
        + lnDet (gsq (Basis.GGT R) (plusK iG kDiff)) * trace e := by
  classical
  have : exGrad prefac lnDet thr R kDiff iG = fun a b => scale (if gsq (Basis.GGT R) (plusK iG kDiff) < thr then 0 else prefac (gsq (Basis.GGT R) (plusK iG kDiff)))
      (outer (wave R (plusK iG kDiff)) (wave R (plusK iG kDiff))) a b
      + scale (if gsq (Basis.GGT R) (plusK iG kDiff) < thr then 0 else lnDet (gsq (Basis.GGT R) (plusK iG kDiff))) (diag 1 1 1) a b := by
    funext a b
    simp only [exGrad, scale, gsq_cart, wave]
    split
    · ring
    · ring
  rw [this, contract_add, contract_scale, contract_scale, contract_id]
  split
  · ring
  · rfl

/-- The factor of one entry: the value at zero wave vector below the threshold, otherwise the kernel, away from the threshold. -/
theorem exFactor_deriv (R : Mat ℝ) (hR : det R ≠ 0) (e : Mat ℝ) (kern : ℝ → ℝ → ℝ) (Vz : ℝ → ℝ) (dV : ℝ) (prefac lnDet : ℝ → ℝ) (thr : ℝ) (hthr : 0 < thr)
    (kDiff : V3 ℝ) (iG : Fin 3 → Int) (hne : gsq (Basis.GGT R) (plusK iG kDiff) ≠ thr)
    (hlow : gsq (Basis.GGT R) (plusK iG kDiff) < thr → HasDerivAt Vz dV 0)
    (hhigh : ∀ v, v ≠ 0 → HasDerivAt (fun t => kern t (gsq (Basis.GGT (strained R e t)) v))
      (prefac (gsq (Basis.GGT R) v) * contract (outer (wave R v) (wave R v)) e + lnDet (gsq (Basis.GGT R) v) * trace e) 0) :
    HasDerivAt (fun t => exFactor (kern t) (Vz t) thr (Basis.GGT (strained R e t)) kDiff iG)
      (contract (exGrad prefac lnDet thr R kDiff iG) e + open Classical in if gsq (Basis.GGT R) (plusK iG kDiff) < thr then dV else 0) 0 := by
  classical
  have hc := (gsq_deriv R hR e (plusK iG kDiff)).continuousAt
  have h0 : gsq (Basis.GGT (strained R e 0)) (plusK iG kDiff) = gsq (Basis.GGT R) (plusK iG kDiff) := by rw [strained_zero]
  rw [contract_exGrad]
  rcases lt_or_gt_of_ne hne with hl | hg
  · rw [if_pos hl, if_pos hl, zero_add]
    refine (hlow hl).congr_of_eventuallyEq ?_
    filter_upwards [hc.eventually_lt continuousAt_const (by rw [h0]; exact hl)] with t ht
    unfold exFactor
    rw [if_pos ht]
  · rw [if_neg (not_lt.2 hg.le), if_neg (not_lt.2 hg.le), add_zero]
    have hv : plusK iG kDiff ≠ 0 := fun hz => by
      rw [(gsq_zero_iff R hR _).2 hz] at hg; linarith
    refine (hhigh _ hv).congr_of_eventuallyEq ?_
    filter_upwards [continuousAt_const.eventually_lt hc (by rw [h0]; exact hg)] with t ht
    unfold exFactor
    rw [if_neg (not_lt.2 ht.le)]

theorem gsq_pos' (R : Mat ℝ) (hR : det R ≠ 0) (v : V3 ℝ) (hv : v ≠ 0) : gsq (Basis.GGT R) v ≠ 0 := (gsq_pos R hR v hv).ne'

theorem exSphere_deriv (R : Mat ℝ) (hR : det R ≠ 0) (e : Mat ℝ) (nk : ℝ) (hn : 0 < nk) (v : V3 ℝ) (hv : v ≠ 0) :
    HasDerivAt (fun t => exSphere (exRc none (nk * |det (strained R e t)|)) (gsq (Basis.GGT (strained R e t)) v))
      (exSphereGrad (exRc none (nk * |det R|)) (gsq (Basis.GGT R) v) * contract (outer (wave R v) (wave R v)) e
        + exSphereLn (exRc none (nk * |det R|)) (gsq (Basis.GGT R) v) * trace e) 0 := by
  have hg := gsq_deriv R hR e v
  have hr := exRc_deriv R hR e nk hn
  have hpos := gsq_pos R hR v hv
  have h0 : gsq (Basis.GGT (strained R e 0)) v = gsq (Basis.GGT R) v := by rw [strained_zero]
  have hs := hg.sqrt (by rw [h0]; exact hpos.ne')
  have hc := (hr.mul hs).cos
  have hk := ((hc.const_sub 1).const_mul (4 * π)).div hg (by rw [h0]; exact hpos.ne')
  refine hk.congr_deriv ?_
  simp only [Pi.mul_apply, strained_zero, exSphereGrad, exSphereLn]
  generalize contract (outer (wave R v) (wave R v)) e = c
  generalize exRc none (nk * |det R|) = Rc
  generalize trace e = tr
  generalize gsq (Basis.GGT R) v = x at *
  have hsx := sqrt_pos.2 hpos
  have hx : x = sqrt x * sqrt x := (mul_self_sqrt hpos.le).symm
  rw [mul_comm (sqrt x) Rc]
  generalize sqrt x = y at *
  subst hx
  field_simp
  ring

/-! ### Screened interaction in a sphere -/

theorem truncated_zero (omega Rc : ℝ) (ho : omega ≠ 0) : truncatedErfcTilde 0 omega Rc = 4 * π * ∫ r in (0 : ℝ)..Rc, r * Smear.erfc (omega * r) := by
  rw [truncatedErfcTilde, if_pos rfl, erfc_moment omega Rc ho, erf]
  have hsp : sqrt π ≠ 0 := (sqrt_pos.2 pi_pos).ne'
  have : exp (-(Rc * Rc) * (omega * omega)) = exp (-(omega * Rc) ^ 2) := by congr 1; ring
  rw [this]
  field_simp
  ring

theorem truncated_ball (omega Rc k : ℝ) (ho : omega ≠ 0) : truncatedErfcTilde k omega Rc = ballFT (fun r => Smear.erfc (omega * r) / r) Rc k := by
  by_cases hk : k = 0
  · rw [hk, truncated_zero _ _ ho, ballFT_erfc_zero]
  · rw [ballFT_erfc_ne _ _ _ hk, truncatedErfcTilde, if_neg hk]

theorem erfc_cont (omega : ℝ) : Continuous fun r => Smear.erfc (omega * r) :=
  continuous_iff_continuousAt.2 fun r => (erfc_scaled_deriv omega r).continuousAt

theorem truncated_deriv (omega Rc k : ℝ) (ho : omega ≠ 0) :
    HasDerivAt (fun Rc => truncatedErfcTilde k omega Rc) (4 * π * Smear.erfc (omega * Rc) * (if k = 0 then Rc else sin (k * Rc) / k)) Rc := by
  have hc := erfc_cont omega
  by_cases hk : k = 0
  · subst hk
    simp only [truncated_zero _ _ ho]
    have hf : Continuous fun r => r * Smear.erfc (omega * r) := continuous_id.mul hc
    refine ((hf.integral_hasStrictDerivAt 0 Rc).hasDerivAt.const_mul (4 * π)).congr_deriv ?_
    simp; ring
  · simp only [truncatedErfcTilde, if_neg hk]
    have hf : Continuous fun r => Smear.erfc (omega * r) * sin (k * r) := hc.mul (by fun_prop)
    refine ((hf.integral_hasStrictDerivAt 0 Rc).hasDerivAt.const_mul (4 * π / k)).congr_deriv ?_
    field_simp

end
end Jdftx.CoulK
