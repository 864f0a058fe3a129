import Verif.Spec.FluidEx
import Verif.Lemmas.CavityGrid
import Mathlib.Analysis.SpecialFunctions.Log.Deriv
import Mathlib.Analysis.SpecialFunctions.Log.Basic
import Mathlib.Tactic.Linarith
import Mathlib.Tactic.FieldSimp

/-!
# Lemmas for C93: derivatives at one point
-/
namespace Jdftx.Fluid
open Box ExCorr Cavity Filter Topology
noncomputable section

theorem log1m_deriv {x : ℝ} (hx : x < 1) : HasDerivAt (fun x => Real.log (1 - x)) (-(1 / (1 - x))) x := by
  have h := ((hasDerivAt_id x).const_sub 1).log (by simp; linarith)
  refine h.congr_deriv ?_
  simp; ring

theorem wbF2_deriv {x : ℝ} (hx : x < 1) (h2 : x ≠ 0.002) : HasDerivAt wbF2 (wbF2' x) x := by
  rcases lt_or_gt_of_ne h2 with h | h
  · have hd : HasDerivAt (fun x : ℝ => 1 + x * x * (1 / 9 + x * (1 / 18 + x * (1 / 30)))) (wbF2' x) x := by
      have i := hasDerivAt_id x
      have := ((i.mul i).mul ((i.mul ((i.mul_const (1 / 30 : ℝ)).const_add (1 / 18))).const_add (1 / 9))).const_add 1
      refine this.congr_deriv ?_
      unfold wbF2'; rw [if_pos h]; simp; ring
    refine hd.congr_of_eventuallyEq ?_
    filter_upwards [Iio_mem_nhds h] with y hy
    unfold wbF2; rw [if_pos (show y < 0.002 from hy)]
  · have h0 : x ≠ 0 := by
      have : (0 : ℝ) < x := lt_trans (by norm_num) h
      exact this.ne'
    have h1 : (1 - x) ≠ 0 := by linarith
    have hd : HasDerivAt (fun x : ℝ => 1 + (1 / 3) * (2 - x + 2 * (1 - x) * Real.log (1 - x) / x)) (wbF2' x) x := by
      have i := hasDerivAt_id x
      have := ((((i.const_sub 2).add ((((i.const_sub 1).const_mul 2).mul (log1m_deriv hx)).div i h0)).const_mul (1 / 3)).const_add 1)
      refine this.congr_deriv ?_
      unfold wbF2'; rw [if_neg (not_lt.2 (le_of_lt h))]; simp
      field_simp; ring
    refine hd.congr_of_eventuallyEq ?_
    filter_upwards [Ioi_mem_nhds h] with y hy
    unfold wbF2; rw [if_neg (not_lt.2 (le_of_lt hy))]

theorem wbF3_deriv {x : ℝ} (hx : x < 1) (h2 : x ≠ 0.005) : HasDerivAt wbF3 (wbF3' x) x := by
  rcases lt_or_gt_of_ne h2 with h | h
  · have hd : HasDerivAt (fun x : ℝ => 1 + x * (-4 / 9 + x * (1 / 18 + x * (1 / 45 + x * (1 / 90))))) (wbF3' x) x := by
      have i := hasDerivAt_id x
      have := (i.mul ((i.mul ((i.mul ((i.mul_const (1 / 90 : ℝ)).const_add (1 / 45))).const_add (1 / 18))).const_add (-4 / 9))).const_add 1
      refine this.congr_deriv ?_
      unfold wbF3'; rw [if_pos h]; simp; ring
    refine hd.congr_of_eventuallyEq ?_
    filter_upwards [Iio_mem_nhds h] with y hy
    unfold wbF3; rw [if_pos (show y < 0.005 from hy)]
  · have h0 : x ≠ 0 := by
      have : (0 : ℝ) < x := lt_trans (by norm_num) h
      exact this.ne'
    have h1 : (1 - x) ≠ 0 := by linarith
    have hd : HasDerivAt (fun x : ℝ => 1 - (x * (2 + x * (-3 + x * 2)) + 2 * (1 - x) * (1 - x) * Real.log (1 - x)) / (3 * x * x)) (wbF3' x) x := by
      have i := hasDerivAt_id x
      have a := i.mul ((i.mul ((i.mul_const (2 : ℝ)).const_add (-3))).const_add 2)
      have b := (((i.const_sub 1).const_mul 2).mul (i.const_sub 1)).mul (log1m_deriv hx)
      have c := ((i.const_mul 3).mul i)
      have := ((a.add b).div c (by simp [h0])).const_sub 1
      refine this.congr_deriv ?_
      unfold wbF3'; rw [if_neg (not_lt.2 (le_of_lt h))]; simp
      field_simp; ring
    refine hd.congr_of_eventuallyEq ?_
    filter_upwards [Ioi_mem_nhds h] with y hy
    unfold wbF3; rw [if_neg (not_lt.2 (le_of_lt hy))]

theorem pole_deriv {f : ℝ → ℝ} {f' t : ℝ} (hf : HasDerivAt f f' t) (h1 : f t ≠ 1) : HasDerivAt (fun s => pole (f s)) (pole (f t) ^ 2 * f') t := by
  have h : 1 - f t ≠ 0 := fun h => h1 (by linarith)
  have := (hasDerivAt_const t (1 : ℝ)).div (hf.const_sub 1) h
  refine this.congr_deriv ?_
  unfold pole; field_simp; ring

/-- Derivative of a curve of tensors. -/
structure TDeriv (x : ℝ → Tensor ℝ) (x' : Tensor ℝ) (t : ℝ) : Prop where
  xy : HasDerivAt (fun s => (x s).xy) x'.xy t
  yz : HasDerivAt (fun s => (x s).yz) x'.yz t
  zx : HasDerivAt (fun s => (x s).zx) x'.zx t
  xxr : HasDerivAt (fun s => (x s).xxr) x'.xxr t
  yyr : HasDerivAt (fun s => (x s).yyr) x'.yyr t

/-- Product of a gradient and a change. -/
def tdot (a b : Tensor ℝ) : ℝ := a.xy * b.xy + a.yz * b.yz + a.zx * b.zx + a.xxr * b.xxr + a.yyr * b.yyr

theorem dot3_deriv {a b : ℝ → Fin 3 → ℝ} {a' b' : Fin 3 → ℝ} {t : ℝ} (ha : ∀ k, HasDerivAt (fun s => a s k) (a' k) t) (hb : ∀ k, HasDerivAt (fun s => b s k) (b' k) t) :
    HasDerivAt (fun s => dot3 (a s) (b s)) (dot3 (a t) b' + dot3 a' (b t)) t := by
  have := (((ha 0).mul (hb 0)).add ((ha 1).mul (hb 1))).add ((ha 2).mul (hb 2))
  refine this.congr_deriv ?_
  unfold dot3; ring

theorem mulVTmv_deriv {m : ℝ → Tensor ℝ} {m' : Tensor ℝ} {v : ℝ → Fin 3 → ℝ} {v' : Fin 3 → ℝ} {t : ℝ} (hm : TDeriv m m' t) (hv : ∀ k, HasDerivAt (fun s => v s k) (v' k) t) :
    HasDerivAt (fun s => mulVTmv (m s) (v s)) (tdot (mulVTmv_m 1 (v t)) m' + dot3 (mulVTmv_v 1 (m t) (v t)) v') t := by
  have a := (((((hm.xy.mul (hv 0)).mul (hv 1)).add ((hm.yz.mul (hv 1)).mul (hv 2))).add ((hm.zx.mul (hv 2)).mul (hv 0))).const_mul 2)
  have b := ((a.add ((hm.xxr.mul (hv 0)).mul (hv 0))).add ((hm.yyr.mul (hv 1)).mul (hv 1))).sub (((hm.xxr.add hm.yyr).mul (hv 2)).mul (hv 2))
  refine b.congr_deriv ?_
  simp [tdot, dot3, mulVTmv_m, mulVTmv_v]; ring

theorem traceCubed_deriv {m : ℝ → Tensor ℝ} {m' : Tensor ℝ} {t : ℝ} (hm : TDeriv m m' t) :
    HasDerivAt (fun s => traceCubed (m s)) (tdot (traceCubed_m 1 (m t)) m') t := by
  have a := ((((hm.xy.const_mul (-2)).mul hm.yz).mul hm.zx).add ((hm.yz.pow 2).mul hm.xxr)).sub ((hm.xy.pow 2).mul (hm.xxr.add hm.yyr))
  have b := (a.add (hm.yyr.mul ((hm.zx.pow 2).add (hm.xxr.mul (hm.xxr.add hm.yyr))))).const_mul (-3)
  refine b.congr_deriv ?_
  simp [tdot, traceCubed_m]; ring

/-- Derivative of a curve of weighted densities. -/
structure FDeriv (x : ℝ → Fmt) (x' : Fmt) (t : ℝ) : Prop where
  n0 : HasDerivAt (fun s => (x s).n0) x'.n0 t
  n1 : HasDerivAt (fun s => (x s).n1) x'.n1 t
  n2 : HasDerivAt (fun s => (x s).n2) x'.n2 t
  n3 : HasDerivAt (fun s => (x s).n3) x'.n3 t
  n1v : ∀ k, HasDerivAt (fun s => (x s).n1v k) (x'.n1v k) t
  n2v : ∀ k, HasDerivAt (fun s => (x s).n2v k) (x'.n2v k) t
  n2m : TDeriv (fun s => (x s).n2m) x'.n2m t

/-- Product of a gradient and a change. -/
def fdot (a b : Fmt) : ℝ := a.n0 * b.n0 + a.n1 * b.n1 + a.n2 * b.n2 + a.n3 * b.n3 + dot3 a.n1v b.n1v + dot3 a.n2v b.n2v + tdot a.n2m b.n2m

theorem tensorPart_deriv {x : ℝ → Fmt} {x' : Fmt} {t : ℝ} (h : FDeriv x x' t) :
    HasDerivAt (fun s => tensorPart (x s)) (tdot (tadd (mulVTmv_m 1 (x t).n2v) (traceCubed_m (-0.5) (x t).n2m)) x'.n2m + dot3 (mulVTmv_v 1 (x t).n2m (x t).n2v) x'.n2v) t := by
  have := (mulVTmv_deriv h.n2m h.n2v).sub ((traceCubed_deriv h.n2m).const_mul 0.5)
  refine this.congr_deriv ?_
  simp [tdot, tadd, traceCubed_m]; ring

theorem phiVal_deriv {x : ℝ → Fmt} {x' : Fmt} {t : ℝ} (h : FDeriv x x' t) (h1 : (x t).n3 < 1) (h2 : (x t).n3 ≠ 0.002) (h3 : (x t).n3 ≠ 0.005) :
    HasDerivAt (fun s => phiVal (x s)) (fdot (phiGrad (x t)) x') t := by
  have hp := pole_deriv h.n3 h1.ne
  have hp0 : pole (x t).n3 ≠ 0 := by unfold pole; exact one_div_ne_zero (by linarith)
  have f2 := (wbF2_deriv h1 h2).comp t h.n3
  have f3 := (wbF3_deriv h1 h3).comp t h.n3
  have c2 : HasDerivAt (fun s => comb2 (x s)) _ t := (h.n1.mul h.n2).sub (dot3_deriv h.n1v h.n2v)
  have c3 : HasDerivAt (fun s => comb3 (x s)) _ t :=
    (h.n2.mul ((h.n2.mul h.n2).sub ((dot3_deriv h.n2v h.n2v).const_mul 3))).add ((tensorPart_deriv h).const_mul 9)
  have a := (h.n0.mul (hp.log hp0)).add (hp.mul ((f2.mul c2).add (hp.mul ((f3.const_mul (1 / (24 * Real.pi))).mul c3))))
  refine a.congr_deriv ?_
  simp only [Function.comp_apply, Pi.mul_apply, Pi.add_apply, Pi.sub_apply]
  simp only [fdot, phiGrad]
  generalize wbF2 (x t).n3 = F2
  generalize wbF3 (x t).n3 = F3
  generalize wbF2' (x t).n3 = F2'
  generalize wbF3' (x t).n3 = F3'
  generalize comb2 (x t) = K2
  generalize comb3 (x t) = K3
  generalize pole (x t).n3 = p at hp0 ⊢
  have hpi := Real.pi_ne_zero
  simp only [tdot, tadd, traceCubed_m, dot3, mulVTmv_m, mulVTmv_v, Matrix.cons_val_zero, Matrix.cons_val_one, Matrix.cons_val]
  field_simp
  ring

/-- A point at which the functional is differentiable: some density negative, or all positive and below the pole and not at the points where the program changes formulas. -/
def FmtRegular (x : Fmt) : Prop :=
  (x.n0 < 0 ∨ x.n1 < 0 ∨ x.n2 < 0 ∨ x.n3 < 0) ∨ (0 < x.n0 ∧ 0 < x.n1 ∧ 0 < x.n2 ∧ 0 < x.n3 ∧ x.n3 < 1 ∧ x.n3 ≠ 0.002 ∧ x.n3 ≠ 0.005)

theorem phiFmt_deriv {x : ℝ → Fmt} {x' : Fmt} {t : ℝ} (h : FDeriv x x' t) (hr : FmtRegular (x t)) :
    HasDerivO (fun s => (phiFmt (x s)).map Prod.fst) (fdot (((phiFmt (x t)).map Prod.snd).getD Fmt.zero) x') t := by
  rcases hr with hr | hr
  · refine ⟨fun _ => 0, ?_, ?_⟩
    · have lt : ∀ {f : ℝ → ℝ} {f' : ℝ}, HasDerivAt f f' t → f t < 0 → ∀ᶠ s in 𝓝 t, f s < 0 := fun hf h0 => hf.continuousAt.eventually (Iio_mem_nhds h0)
      rcases hr with hr | hr | hr | hr
      · filter_upwards [lt h.n0 hr] with s hs; unfold phiFmt; rw [if_pos (Or.inl hs)]; rfl
      · filter_upwards [lt h.n1 hr] with s hs; unfold phiFmt; rw [if_pos (Or.inr (Or.inl hs))]; rfl
      · filter_upwards [lt h.n2 hr] with s hs; unfold phiFmt; rw [if_pos (Or.inr (Or.inr (Or.inl hs)))]; rfl
      · filter_upwards [lt h.n3 hr] with s hs; unfold phiFmt; rw [if_pos (Or.inr (Or.inr (Or.inr hs)))]; rfl
    · have e : fdot (((phiFmt (x t)).map Prod.snd).getD Fmt.zero) x' = 0 := by
        unfold phiFmt; rw [if_pos hr]; simp [fdot, Fmt.zero, dot3, tdot]
      rw [e]; exact hasDerivAt_const _ _
  · obtain ⟨h0, h1, h2, h3, h4, h5, h6⟩ := hr
    have neg : ∀ y : Fmt, 0 < y.n0 → 0 < y.n1 → 0 < y.n2 → 0 < y.n3 → y.n3 < 1 → phiFmt y = some (phiVal y, phiGrad y) := by
      intro y a b c d e
      unfold phiFmt
      rw [if_neg (by push Not; exact ⟨a.le, b.le, c.le, d.le⟩), if_neg (by push Not; exact e)]
    refine ⟨fun s => phiVal (x s), ?_, ?_⟩
    · have gt : ∀ {f : ℝ → ℝ} {f' : ℝ}, HasDerivAt f f' t → 0 < f t → ∀ᶠ s in 𝓝 t, 0 < f s := fun hf h0 => hf.continuousAt.eventually (Ioi_mem_nhds h0)
      filter_upwards [gt h.n0 h0, gt h.n1 h1, gt h.n2 h2, gt h.n3 h3, h.n3.continuousAt.eventually (Iio_mem_nhds h4)] with s a b c d e
      rw [neg _ a b c d e]; rfl
    · rw [neg _ h0 h1 h2 h3 h4]
      exact phiVal_deriv h h4 h5 h6

/-! ### Bonds -/

/-- Derivative of a curve of arguments of the bonding correction. -/
structure BDeriv (x : ℝ → Bnd) (x' : Bnd) (t : ℝ) : Prop where
  n0 : HasDerivAt (fun s => (x s).n0) x'.n0 t
  n2 : HasDerivAt (fun s => (x s).n2) x'.n2 t
  n3 : HasDerivAt (fun s => (x s).n3) x'.n3 t
  n2v : ∀ k, HasDerivAt (fun s => (x s).n2v k) (x'.n2v k) t

/-- Product of a gradient and a change. -/
def bdot (a b : Bnd) : ℝ := a.n0 * b.n0 + a.n2 * b.n2 + a.n3 * b.n3 + dot3 a.n2v b.n2v

/-- A point at which the bonding correction is differentiable. -/
def BndRegular (x : Bnd) : Prop := (x.n0 < 0 ∨ x.n2 < 0 ∨ x.n3 < 0) ∨ (0 < x.n0 ∧ 0 < x.n2 ∧ 0 < x.n3 ∧ x.n3 < 1 ∧ dot3 x.n2v x.n2v ≠ x.n2 * x.n2)

theorem zeta_range {n2 s : ℝ} : 0 ≤ zeta n2 s := by
  unfold zeta
  split
  · exact le_rfl
  · rename_i h
    push Not at h
    have : 0 < n2 * n2 := mul_pos h.1 h.1
    rw [sub_nonneg, div_le_one this]; exact h.2

theorem zeta_deriv {x : ℝ → Bnd} {x' : Bnd} {t : ℝ} (h : BDeriv x x' t) (h2 : 0 < (x t).n2) (hv : dot3 (x t).n2v (x t).n2v ≠ (x t).n2 * (x t).n2) :
    HasDerivAt (fun s => zeta (x s).n2 (dot3 (x s).n2v (x s).n2v))
      ((if zeta (x t).n2 (dot3 (x t).n2v (x t).n2v) ≠ 0 then 2 * dot3 (x t).n2v (x t).n2v / ((x t).n2 * (x t).n2 * (x t).n2) else 0) * x'.n2
        + dot3 (fun k => if zeta (x t).n2 (dot3 (x t).n2v (x t).n2v) ≠ 0 then (-2 / ((x t).n2 * (x t).n2)) * (x t).n2v k else 0) x'.n2v) t := by
  have hd := dot3_deriv h.n2v h.n2v
  have h22 : 0 < (x t).n2 * (x t).n2 := mul_pos h2 h2
  rcases lt_or_gt_of_ne hv with hl | hl
  · have z : zeta (x t).n2 (dot3 (x t).n2v (x t).n2v) ≠ 0 := by
      unfold zeta
      rw [if_neg (by push Not; exact ⟨h2, hl.le⟩)]
      have : dot3 (x t).n2v (x t).n2v / ((x t).n2 * (x t).n2) < 1 := by rw [div_lt_one h22]; exact hl
      linarith
    simp only [if_pos z]
    have a := (hd.div (h.n2.mul h.n2) h22.ne').const_sub 1
    refine (a.congr_of_eventuallyEq ?_).congr_deriv ?_
    · filter_upwards [h.n2.continuousAt.eventually (Ioi_mem_nhds h2), (hd.sub (h.n2.mul h.n2)).continuousAt.eventually (Iio_mem_nhds (show _ < (0 : ℝ) by simpa using hl))] with s a b
      have b' : dot3 (x s).n2v (x s).n2v - (x s).n2 * (x s).n2 < 0 := b
      unfold zeta
      rw [if_neg (by push Not; exact ⟨a, by linarith⟩)]; rfl
    · simp only [dot3, Pi.mul_apply]
      have := h2.ne'
      field_simp
      ring
  · have z : ¬ zeta (x t).n2 (dot3 (x t).n2v (x t).n2v) ≠ 0 := by
      rw [not_not]; unfold zeta; rw [if_pos (Or.inr hl)]
    simp only [if_neg z]
    refine ((hasDerivAt_const t (0 : ℝ)).congr_of_eventuallyEq ?_).congr_deriv (by simp [dot3])
    filter_upwards [(hd.sub (h.n2.mul h.n2)).continuousAt.eventually (Ioi_mem_nhds (show (0 : ℝ) < _ by simpa using hl))] with s b
    have b' : 0 < dot3 (x s).n2v (x s).n2v - (x s).n2 * (x s).n2 := b
    unfold zeta
    rw [if_pos (Or.inr (by linarith))]

theorem dot3_self_nonneg (v : Fin 3 → ℝ) : 0 ≤ dot3 v v := by unfold dot3; nlinarith [mul_self_nonneg (v 0), mul_self_nonneg (v 1), mul_self_nonneg (v 2)]

theorem gContact_pos {Rhm : ℝ} (hR : 0 ≤ Rhm) {x : Bnd} (h2 : 0 ≤ x.n2) (h1 : x.n3 < 1) : 0 < gContact Rhm x := by
  have hp : 0 < pole x.n3 := by unfold pole; exact one_div_pos.2 (by linarith)
  have hz := zeta_range (n2 := x.n2) (s := dot3 x.n2v x.n2v)
  unfold gContact
  positivity

theorem phiBond_deriv {Rhm scale : ℝ} (hR : 0 ≤ Rhm) {x : ℝ → Bnd} {x' : Bnd} {t : ℝ} (h : BDeriv x x' t) (hr : BndRegular (x t)) :
    HasDerivO (fun s => (phiBond Rhm scale (x s)).map Prod.fst) (bdot (((phiBond Rhm scale (x t)).map Prod.snd).getD ⟨0, 0, 0, fun _ => 0⟩) x') t := by
  rcases hr with hr | hr
  · refine ⟨fun _ => 0, ?_, ?_⟩
    · have lt : ∀ {f : ℝ → ℝ} {f' : ℝ}, HasDerivAt f f' t → f t < 0 → ∀ᶠ s in 𝓝 t, f s < 0 := fun hf h0 => hf.continuousAt.eventually (Iio_mem_nhds h0)
      rcases hr with hr | hr | hr
      · filter_upwards [lt h.n0 hr] with s hs; unfold phiBond; rw [if_pos (Or.inl hs)]; rfl
      · filter_upwards [lt h.n2 hr] with s hs; unfold phiBond; rw [if_pos (Or.inr (Or.inl hs))]; rfl
      · filter_upwards [lt h.n3 hr] with s hs; unfold phiBond; rw [if_pos (Or.inr (Or.inr hs))]; rfl
    · have e : bdot (((phiBond Rhm scale (x t)).map Prod.snd).getD ⟨0, 0, 0, fun _ => 0⟩) x' = 0 := by
        unfold phiBond; rw [if_pos hr]; simp [bdot, dot3]
      rw [e]; exact hasDerivAt_const _ _
  · obtain ⟨h0, h2, h3, h4, h5⟩ := hr
    have val : ∀ y : Bnd, 0 < y.n0 → 0 < y.n2 → 0 < y.n3 → y.n3 < 1 → phiBond Rhm scale y = some (-scale * y.n0 * Real.log (gContact Rhm y), bondGrad Rhm scale y) := by
      intro y a b c d
      unfold phiBond
      rw [if_neg (by push Not; exact ⟨a.le, b.le, c.le⟩), if_neg (by push Not; exact ⟨d.ne, gContact_pos hR b.le d⟩)]
    refine ⟨fun s => -scale * (x s).n0 * Real.log (gContact Rhm (x s)), ?_, ?_⟩
    · have gt : ∀ {f : ℝ → ℝ} {f' : ℝ}, HasDerivAt f f' t → 0 < f t → ∀ᶠ s in 𝓝 t, 0 < f s := fun hf h0 => hf.continuousAt.eventually (Ioi_mem_nhds h0)
      filter_upwards [gt h.n0 h0, gt h.n2 h2, gt h.n3 h3, h.n3.continuousAt.eventually (Iio_mem_nhds h4)] with s a b c d
      rw [val _ a b c d]; rfl
    · rw [val _ h0 h2 h3 h4]
      have hz := zeta_deriv h h2 h5
      have hp := pole_deriv h.n3 h4.ne
      have hg : HasDerivAt (fun s => gContact Rhm (x s)) _ t :=
        hp.mul (((hz.mul hp).mul ((h.n2.const_mul Rhm).add ((hp.mul_const (2 / 9)).mul ((h.n2.const_mul Rhm).pow 2)))).const_add 1)
      have hgp := gContact_pos hR (x := x t) h2.le h4
      have a := (h.n0.const_mul (-scale)).mul (hg.log hgp.ne')
      refine a.congr_deriv ?_
      simp only [Option.map_some, Option.getD_some, bdot, bondGrad, Pi.mul_apply, Pi.add_apply, Pi.pow_apply]
      generalize gContact Rhm (x t) = gc at hgp ⊢
      have hgc := hgp.ne'
      have h2' := h2.ne'
      by_cases z0 : zeta (x t).n2 (dot3 (x t).n2v (x t).n2v) = 0
      · simp only [ne_eq, dot3]
        generalize pole (x t).n3 = p
        field_simp
        ring
      · simp only [ne_eq, z0, not_false_eq_true, if_true]
        generalize zeta (x t).n2 (dot3 (x t).n2v (x t).n2v) = z
        simp only [dot3]
        generalize pole (x t).n3 = p
        field_simp
        ring

end
end Jdftx.Fluid
