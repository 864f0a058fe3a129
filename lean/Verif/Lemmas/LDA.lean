import Verif.Spec.LDA
import Mathlib.Analysis.SpecialFunctions.Pow.Deriv
import Mathlib.Analysis.SpecialFunctions.Log.Deriv
import Mathlib.Analysis.SpecialFunctions.Sqrt
import Mathlib.Analysis.Convex.SpecificFunctions.Basic
import Mathlib.Analysis.SpecialFunctions.Trigonometric.ArctanDeriv

/-!
# Lemmas for C72
-/
namespace Jdftx.LDA
noncomputable section
open Filter Topology

/-- The functor stores the derivative of the value it returns. -/
def Consistent (F : ℝ → V1) (rs : ℝ) : Prop := HasDerivAt (fun r => (F r).e) (F rs).e_rs rs

theorem pz_ok (para : Bool) (rs : ℝ) (h : 0 < rs) (h1 : rs ≠ 1) : Consistent (pz para) rs := by
  unfold Consistent
  have hid := hasDerivAt_id rs
  rcases lt_or_gt_of_ne h1 with hlt | hgt
  · have hlog := Real.hasDerivAt_log h.ne'
    simp only [pz, if_pos hlt]
    generalize (if para then (0.0311 : ℝ) else 0.01555) = a
    generalize hb : (if para then (-0.0480 : ℝ) else -0.0269) = b
    generalize hc : (if para then (0.0020 : ℝ) else 0.0007) = c
    generalize hd : (if para then (-0.0116 : ℝ) else -0.0048) = d
    refine HasDerivAt.congr_of_eventuallyEq (f := fun r => (a + c * r) * Real.log r + b + d * r) ?_ ?_
    · refine (((((hid.const_mul c).const_add a).mul hlog).add_const b).add (hid.const_mul d)).congr_deriv ?_
      simp only [id]; field_simp; ring
    · filter_upwards [gt_mem_nhds hlt] with r hr
      rw [if_pos hr]
  · have hsq := Real.hasDerivAt_sqrt h.ne'
    have hs : 0 < Real.sqrt rs := Real.sqrt_pos.2 h
    simp only [pz, if_neg (not_lt.2 hgt.le)]
    generalize (if para then (-0.1423 : ℝ) else -0.0843) = gamma
    have p1 : 0 < (if para then (1.0529 : ℝ) else 1.3981) := by split <;> norm_num
    have p2 : 0 < (if para then (0.3334 : ℝ) else 0.2611) := by split <;> norm_num
    generalize (if para then (1.0529 : ℝ) else 1.3981) = b1 at p1
    generalize (if para then (0.3334 : ℝ) else 0.2611) = b2 at p2
    have hden : 1 + b1 * Real.sqrt rs + b2 * rs ≠ 0 := by positivity
    refine HasDerivAt.congr_of_eventuallyEq (f := fun r => gamma * (1 / (1 + b1 * Real.sqrt r + b2 * r))) ?_ ?_
    · refine (((hasDerivAt_const rs (1 : ℝ)).div (((hsq.const_mul b1).const_add 1).add (hid.const_mul b2)) hden).const_mul gamma).congr_deriv ?_
      simp only [Pi.add_apply, id]
      generalize Real.sqrt rs = s at *
      field_simp; ring
    · filter_upwards [lt_mem_nhds hgt] with r hr
      rw [if_neg (not_lt.2 hr.le)]

/-- Form of the Perdew-Wang functional. -/
theorem pw_form (A alpha b1 b2 b3 b4 rs : ℝ) (hrs : 0 < rs) (hA : 0 < A) (h1 : 0 < b1) (h2 : 0 < b2) (h3 : 0 < b3) (h4 : 0 < b4) :
    HasDerivAt (fun r => -(2 * A) * (1 + alpha * r) * Real.log (1 + 1 / ((2 * A) * Real.sqrt r * (b1 + Real.sqrt r * (b2 + Real.sqrt r * (b3 + Real.sqrt r * b4))))))
      (-(2 * A) * (alpha * Real.log (1 + 1 / ((2 * A) * Real.sqrt rs * (b1 + Real.sqrt rs * (b2 + Real.sqrt rs * (b3 + Real.sqrt rs * b4)))))
        + (1 + alpha * rs) * (-((2 * A) * (b1 + Real.sqrt rs * (2 * b2 + Real.sqrt rs * (3 * b3 + Real.sqrt rs * (4 * b4)))) * 0.5 / Real.sqrt rs)
          / (((2 * A) * Real.sqrt rs * (b1 + Real.sqrt rs * (b2 + Real.sqrt rs * (b3 + Real.sqrt rs * b4))))
            * (1 + (2 * A) * Real.sqrt rs * (b1 + Real.sqrt rs * (b2 + Real.sqrt rs * (b3 + Real.sqrt rs * b4)))))))) rs := by
  have hid := hasDerivAt_id rs
  have hs : 0 < Real.sqrt rs := Real.sqrt_pos.2 hrs
  let den : ℝ → ℝ := fun x => (2 * A) * x * (b1 + x * (b2 + x * (b3 + x * b4)))
  have hden : ∀ x, HasDerivAt den ((2 * A) * (b1 + x * (2 * b2 + x * (3 * b3 + x * (4 * b4))))) x := by
    intro x
    have hx := hasDerivAt_id x
    refine ((hx.const_mul (2 * A)).mul ((hx.mul ((hx.mul ((hx.mul_const b4).const_add b3)).const_add b2)).const_add b1)).congr_deriv ?_
    simp; ring
  have hpos : 0 < den (Real.sqrt rs) := by simp only [den]; positivity
  have h := (hden (Real.sqrt rs)).comp rs (Real.hasDerivAt_sqrt hrs.ne')
  have hl := ((((hasDerivAt_const rs (1 : ℝ)).div h hpos.ne').const_add 1).log (by simp only [Pi.div_apply, Function.comp]; positivity))
  have hf := ((((hid.const_mul alpha).const_add 1).const_mul (-(2 * A))).mul hl)
  refine hf.congr_deriv ?_
  simp only [Pi.div_apply, Function.comp, id]
  have e : (2 * A) * Real.sqrt rs * (b1 + Real.sqrt rs * (b2 + Real.sqrt rs * (b3 + Real.sqrt rs * b4))) = den (Real.sqrt rs) := rfl
  rw [e]
  generalize (2 * A) * (b1 + Real.sqrt rs * (2 * b2 + Real.sqrt rs * (3 * b3 + Real.sqrt rs * (4 * b4)))) = D
  generalize den (Real.sqrt rs) = d at *
  generalize Real.log (1 + 1 / d) = L
  have hd : 1 + d ≠ 0 := by positivity
  have hd' : d + 1 ≠ 0 := by positivity
  field_simp
  ring

theorem pw_ok (spinID : Nat) (prec : Bool) (rs : ℝ) (h : 0 < rs) : Consistent (pw spinID prec) rs := by
  refine pw_form _ _ _ _ _ _ rs h ?_ ?_ ?_ ?_ ?_ <;> simp only [pick] <;> split_ifs <;> norm_num

/-- Form of the Vosko-Wilk-Nusair functional. -/
theorem vwn_form (A b c x0 K Q rs : ℝ) (hrs : 0 < rs) (hQ : 0 < Q) (hb : 0 < b) (hc : 0 < c) (hx0 : x0 < 0) :
    HasDerivAt (fun r => A * (Real.log (Real.sqrt r * Real.sqrt r / (c + Real.sqrt r * (b + Real.sqrt r)))
        + b * ((2 / Q) * Real.arctan (Q / (2 * Real.sqrt r + b))
          - K * (Real.log ((Real.sqrt r - x0) * (Real.sqrt r - x0) / (c + Real.sqrt r * (b + Real.sqrt r)))
            + (b + 2 * x0) * ((2 / Q) * Real.arctan (Q / (2 * Real.sqrt r + b)))))))
      (A * ((2 / Real.sqrt rs - (2 * Real.sqrt rs + b) / (c + Real.sqrt rs * (b + Real.sqrt rs)))
        + b * (-4 / (Q * Q + (2 * Real.sqrt rs + b) * (2 * Real.sqrt rs + b))
          - K * ((2 / (Real.sqrt rs - x0) - (2 * Real.sqrt rs + b) / (c + Real.sqrt rs * (b + Real.sqrt rs)))
            + (b + 2 * x0) * (-4 / (Q * Q + (2 * Real.sqrt rs + b) * (2 * Real.sqrt rs + b)))))) * 0.5 / Real.sqrt rs) rs := by
  have hs : 0 < Real.sqrt rs := Real.sqrt_pos.2 hrs
  have key : ∀ x, 0 < x → HasDerivAt (fun x => A * (Real.log (x * x / (c + x * (b + x)))
        + b * ((2 / Q) * Real.arctan (Q / (2 * x + b))
          - K * (Real.log ((x - x0) * (x - x0) / (c + x * (b + x))) + (b + 2 * x0) * ((2 / Q) * Real.arctan (Q / (2 * x + b)))))))
      (A * ((2 / x - (2 * x + b) / (c + x * (b + x)))
        + b * (-4 / (Q * Q + (2 * x + b) * (2 * x + b))
          - K * ((2 / (x - x0) - (2 * x + b) / (c + x * (b + x)))
            + (b + 2 * x0) * (-4 / (Q * Q + (2 * x + b) * (2 * x + b))))))) x := by
    intro x hx
    have hid := hasDerivAt_id x
    have hX : HasDerivAt (fun x => c + x * (b + x)) (2 * x + b) x :=
      ((hid.mul (hid.const_add b)).const_add c).congr_deriv (by simp; ring)
    have hXp : 0 < c + x * (b + x) := by positivity
    have hXx : 0 < 2 * x + b := by positivity
    have hat : HasDerivAt (fun x => (2 / Q) * Real.arctan (Q / (2 * x + b))) (-4 / (Q * Q + (2 * x + b) * (2 * x + b))) x := by
      have h1 := (hasDerivAt_const x Q).div ((hid.const_mul 2).add_const b) hXx.ne'
      refine (h1.arctan.const_mul (2 / Q)).congr_deriv ?_
      simp only [Pi.div_apply, id]
      have : Q * Q + (2 * x + b) * (2 * x + b) ≠ 0 := by positivity
      have : 1 + (Q / (2 * x + b)) ^ 2 ≠ 0 := by positivity
      generalize 2 * x + b = y at *
      have : y ^ 2 + Q ^ 2 ≠ 0 := by positivity
      field_simp
      ring
    have hl1 : HasDerivAt (fun x => Real.log (x * x / (c + x * (b + x)))) (2 / x - (2 * x + b) / (c + x * (b + x))) x := by
      refine (((hid.mul hid).div hX hXp.ne').log (by simp only [Pi.div_apply, Pi.mul_apply, id]; positivity)).congr_deriv ?_
      simp only [Pi.div_apply, Pi.mul_apply, id]
      generalize c + x * (b + x) = X at *
      field_simp; ring
    have hl2 : HasDerivAt (fun x => Real.log ((x - x0) * (x - x0) / (c + x * (b + x)))) (2 / (x - x0) - (2 * x + b) / (c + x * (b + x))) x := by
      have hy : 0 < x - x0 := by linarith
      have hid' := hid.sub_const x0
      refine (((hid'.mul hid').div hX hXp.ne').log (by simp only [Pi.div_apply, Pi.mul_apply, id]; positivity)).congr_deriv ?_
      simp only [Pi.div_apply, Pi.mul_apply, id]
      generalize x - x0 = y at *
      generalize c + x * (b + x) = X at *
      field_simp; ring
    exact (hl1.add ((hat.sub ((hl2.add (hat.const_mul (b + 2 * x0))).const_mul K)).const_mul b)).const_mul A
  have h := (key (Real.sqrt rs) hs).comp rs (Real.hasDerivAt_sqrt hrs.ne')
  refine h.congr_deriv ?_
  generalize (2 / Real.sqrt rs - (2 * Real.sqrt rs + b) / (c + Real.sqrt rs * (b + Real.sqrt rs)))
        + b * (-4 / (Q * Q + (2 * Real.sqrt rs + b) * (2 * Real.sqrt rs + b))
          - K * ((2 / (Real.sqrt rs - x0) - (2 * Real.sqrt rs + b) / (c + Real.sqrt rs * (b + Real.sqrt rs)))
            + (b + 2 * x0) * (-4 / (Q * Q + (2 * Real.sqrt rs + b) * (2 * Real.sqrt rs + b))))) = T
  norm_num
  ring

theorem vwn_ok (spinID : Nat) (rs : ℝ) (h : 0 < rs) : Consistent (vwn spinID) rs := by
  refine vwn_form _ _ _ _ _ _ rs h ?_ ?_ ?_ ?_
  · refine Real.sqrt_pos.2 ?_
    simp only [pick]; split_ifs <;> norm_num
  all_goals simp only [pick]; split_ifs <;> norm_num

/-! ## Spin interpolation -/

theorem scale_pos : 0 < (2 : ℝ) ^ (4 / 3 : ℝ) - 2 := by
  have h : (2 : ℝ) ^ (1 : ℝ) < (2 : ℝ) ^ (4 / 3 : ℝ) := Real.rpow_lt_rpow_of_exponent_lt (by norm_num) (by norm_num)
  rw [Real.rpow_one] at h; linarith

theorem spinF_zero : spinF 0 = 0 ∧ spinF_zeta 0 = 0 := by
  constructor <;> norm_num [spinF, spinF_zeta]

theorem pow43_deriv (y : ℝ) (hy : 0 < y) : HasDerivAt (fun y : ℝ => y * y ^ (1 / 3 : ℝ)) (4 / 3 * y ^ (1 / 3 : ℝ)) y := by
  have h := (hasDerivAt_id y).mul ((hasDerivAt_id y).rpow_const (p := 1 / 3) (Or.inl hy.ne'))
  refine h.congr_deriv ?_
  have : y ^ (1 / 3 : ℝ) = y * y ^ ((1 / 3 : ℝ) - 1) := by
    rw [Real.rpow_sub_one hy.ne']; field_simp
  simp only [id]
  rw [this]; ring

theorem spinF_deriv (z : ℝ) (h1 : -1 < z) (h2 : z < 1) : HasDerivAt spinF (spinF_zeta z) z := by
  have hid := hasDerivAt_id z
  have hp := (pow43_deriv (1 + z) (by linarith)).comp z (hid.const_add 1)
  have hm := (pow43_deriv (1 - z) (by linarith)).comp z (hid.const_sub 1)
  refine (((hp.add hm).sub_const 2).const_mul (1 / ((2 : ℝ) ^ (4 / 3 : ℝ) - 2))).congr_deriv ?_
  simp only [spinF_zeta]; ring

/-- The special case for `zeta = 0` gives the same values as the general formula. -/
theorem spinInterpolate2_eq (rs zeta : ℝ) (para ferro : ℝ → V1) : spinInterpolate2 rs zeta para ferro =
    { e_rs := (para rs).e_rs + spinF zeta * ((ferro rs).e_rs - (para rs).e_rs)
      e_zeta := spinF_zeta zeta * ((ferro rs).e - (para rs).e)
      e := (para rs).e + spinF zeta * ((ferro rs).e - (para rs).e) } := by
  by_cases h : zeta = 0
  · subst h
    simp only [spinInterpolate2, if_true, spinF_zero.1, spinF_zero.2, zero_mul, add_zero]
  · simp only [spinInterpolate2, if_neg h]

theorem spinInterpolate3_eq (rs zeta : ℝ) (para ferro stiff : ℝ → V1) (fDbl : ℝ) : spinInterpolate3 rs zeta para ferro stiff fDbl =
    { e_rs := (para rs).e_rs + zeta ^ 4 * spinF zeta * ((ferro rs).e_rs - (para rs).e_rs)
        + -1 / fDbl * ((1 - zeta ^ 4) * spinF zeta) * (stiff rs).e_rs
      e_zeta := (4 * zeta ^ 3 * spinF zeta + zeta ^ 4 * spinF_zeta zeta) * ((ferro rs).e - (para rs).e)
        + -1 / fDbl * (-4 * zeta ^ 3 * spinF zeta + (1 - zeta ^ 4) * spinF_zeta zeta) * (stiff rs).e
      e := (para rs).e + zeta ^ 4 * spinF zeta * ((ferro rs).e - (para rs).e)
        + -1 / fDbl * ((1 - zeta ^ 4) * spinF zeta) * (stiff rs).e } := by
  have e4 : zeta * zeta * (zeta * zeta) = zeta ^ 4 := by ring
  have e3 : zeta * zeta * zeta = zeta ^ 3 := by ring
  by_cases h : zeta = 0
  · subst h
    simp only [spinInterpolate3, if_true, spinF_zero.1, spinF_zero.2]
    norm_num
  · simp only [spinInterpolate3, if_neg h, e4, e3]

/-- The stored derivatives with respect to `rs` and `zeta` are those of the value, along every path. -/
def Consistent2 (F : ℝ → ℝ → V2) (rs zeta : ℝ) : Prop := ∀ (r z : ℝ → ℝ) (r' z' : ℝ), r 0 = rs → z 0 = zeta →
  HasDerivAt r r' 0 → HasDerivAt z z' 0 → HasDerivAt (fun t => (F (r t) (z t)).e) ((F rs zeta).e_rs * r' + (F rs zeta).e_zeta * z') 0

theorem interp2_ok (para ferro : ℝ → V1) (rs zeta : ℝ) (hp : Consistent para rs) (hf : Consistent ferro rs) (h1 : -1 < zeta) (h2 : zeta < 1) :
    Consistent2 (fun rs zeta => spinInterpolate2 rs zeta para ferro) rs zeta := by
  rintro r z r' z' rfl rfl hr hz
  simp only [spinInterpolate2_eq]
  have a := HasDerivAt.comp (0 : ℝ) hp hr
  have b := HasDerivAt.comp (0 : ℝ) hf hr
  have s := HasDerivAt.comp (0 : ℝ) (spinF_deriv (z 0) h1 h2) hz
  refine (a.add (s.mul (b.sub a))).congr_deriv ?_
  simp only [Function.comp, Pi.sub_apply]; ring

theorem interp3_ok (para ferro stiff : ℝ → V1) (fDbl rs zeta : ℝ) (hp : Consistent para rs) (hf : Consistent ferro rs)
    (hs : Consistent stiff rs) (h1 : -1 < zeta) (h2 : zeta < 1) :
    Consistent2 (fun rs zeta => spinInterpolate3 rs zeta para ferro stiff fDbl) rs zeta := by
  rintro r z r' z' rfl rfl hr hz
  simp only [spinInterpolate3_eq]
  have a := HasDerivAt.comp (0 : ℝ) hp hr
  have b := HasDerivAt.comp (0 : ℝ) hf hr
  have c := HasDerivAt.comp (0 : ℝ) hs hr
  have s := HasDerivAt.comp (0 : ℝ) (spinF_deriv (z 0) h1 h2) hz
  have z4 := hz.pow 4
  refine ((a.add ((z4.mul s).mul (b.sub a))).add ((((z4.const_sub 1).mul s).const_mul (-1 / fDbl)).mul c)).congr_deriv ?_
  simp only [Function.comp, Pi.sub_apply, Pi.pow_apply, Pi.mul_apply]
  norm_num
  ring

theorem spinF_nonneg (z : ℝ) (h1 : -1 < z) (h2 : z < 1) : 0 ≤ spinF z := by
  -- convexity of the power 4/3
  have hc : ConvexOn ℝ (Set.Ici 0) fun x : ℝ => x ^ (4 / 3 : ℝ) := convexOn_rpow (by norm_num)
  have h := hc.2 (show (1 + z) ∈ Set.Ici (0 : ℝ) by simp; linarith) (show (1 - z) ∈ Set.Ici (0 : ℝ) by simp; linarith)
    (show (0 : ℝ) ≤ 1 / 2 by norm_num) (show (0 : ℝ) ≤ 1 / 2 by norm_num) (by norm_num)
  have e : (1 / 2 : ℝ) • (1 + z) + (1 / 2 : ℝ) • (1 - z) = 1 := by simp only [smul_eq_mul]; ring
  rw [e] at h
  simp only [Real.one_rpow] at h
  have p : ∀ y : ℝ, 0 < y → y ^ (4 / 3 : ℝ) = y * y ^ (1 / 3 : ℝ) := by
    intro y hy
    rw [show (4 / 3 : ℝ) = 1 + 1 / 3 by norm_num, Real.rpow_add hy, Real.rpow_one]
  simp only [p (1 + z) (by linarith), p (1 - z) (by linarith), smul_eq_mul] at h
  simp only [spinF]
  exact mul_nonneg (div_nonneg zero_le_one scale_pos.le) (by linarith)

theorem teter_ok (rs zeta : ℝ) (hrs : 0 < rs) (h1 : -1 < zeta) (h2 : zeta < 1) : Consistent2 teter rs zeta := by
  rintro r z r' z' rfl rfl hr hz
  have s := HasDerivAt.comp (0 : ℝ) (spinF_deriv (z 0) h1 h2) hz
  have hf : 0 ≤ spinF (z 0) := spinF_nonneg (z 0) h1 h2
  have lin : ∀ p d : ℝ, HasDerivAt (fun t => p + spinF (z t) * d) (spinF_zeta (z 0) * z' * d) 0 := fun p d =>
    (s.mul_const d).const_add p
  have hnum := (lin 0.4581652932831429 0.119086804055547).add (hr.mul ((lin 2.217058676663745 0.6157402568883345).add
    (hr.mul ((lin 0.7405551735357053 0.1574201515892867).add (hr.mul (lin 0.01968227878617998 0.003532336663397157))))))
  have hden := hr.mul ((hr.mul ((lin 4.504130959426697 0.2673612973836267).add (hr.mul ((lin 1.110667363742916 0.2052004607777787).add
    (hr.mul (lin 0.02359291751427506 0.004200005045691381)))))).const_add 1)
  have hpos : 0 < r 0 * (1 + r 0 * (4.504130959426697 + spinF (z 0) * 0.2673612973836267 + r 0 * (1.110667363742916 + spinF (z 0) * 0.2052004607777787
      + r 0 * (0.02359291751427506 + spinF (z 0) * 0.004200005045691381)))) := by positivity
  refine (hnum.neg.div hden hpos.ne').congr_deriv ?_
  simp only [teter, Pi.neg_apply, Pi.add_apply, Pi.mul_apply]
  have hne := hpos.ne'
  generalize r 0 * (1 + r 0 * (4.504130959426697 + spinF (z 0) * 0.2673612973836267 + r 0 * (1.110667363742916 + spinF (z 0) * 0.2052004607777787
      + r 0 * (0.02359291751427506 + spinF (z 0) * 0.004200005045691381)))) = D at *
  field_simp
  ring

end
end Jdftx.LDA
