import Mathlib.Analysis.SpecialFunctions.ExpDeriv
import Mathlib.Analysis.Calculus.DSlope
import Mathlib.Topology.Order.IntermediateValue
import Mathlib.Topology.Algebra.Order.LiminfLimsup
import Mathlib.Tactic.Linarith
import Mathlib.Tactic.FieldSimp

/-!
# Lemmas for C95: the potential that makes a cell neutral
-/
namespace Jdftx.Fluid
open Filter Topology
noncomputable section

variable {ι : Type} (s : Finset ι) (q : ι → ℝ)

/-- The total charge for fixed charge `Qf` and numbers of molecules `n`, at potential `b`. -/
def charge (n : ι → ℝ) (Qf b : ℝ) : ℝ := Qf + ∑ i ∈ s, q i * (n i * Real.exp (-q i * b))

/-- Its derivative. -/
def chargeD (n : ι → ℝ) (b : ℝ) : ℝ := ∑ i ∈ s, -q i * q i * (n i * Real.exp (-q i * b))

variable {s q}

theorem charge_hasDeriv (n : ι → ℝ) (Qf b : ℝ) : HasDerivAt (charge s q n Qf) (chargeD s q n b) b := by
  unfold charge chargeD
  have : HasDerivAt (fun b => ∑ i ∈ s, q i * (n i * Real.exp (-q i * b))) (∑ i ∈ s, -q i * q i * (n i * Real.exp (-q i * b))) b := by
    refine HasDerivAt.fun_sum fun i _ => ?_
    have h : HasDerivAt (fun b => -q i * b) (-q i) b := by simpa using (hasDerivAt_id b).const_mul (-q i)
    exact ((h.exp.const_mul (n i)).const_mul (q i)).congr_deriv (by ring)
  exact this.const_add Qf

theorem chargeD_neg {n : ι → ℝ} (hs : s.Nonempty) (hq : ∀ i ∈ s, q i ≠ 0) (hn : ∀ i ∈ s, 0 < n i) (b : ℝ) : chargeD s q n b < 0 := by
  refine Finset.sum_neg (fun i hi => ?_) hs
  have h1 : 0 < q i * q i := mul_self_pos.2 (hq i hi)
  have h2 : 0 < n i * Real.exp (-q i * b) := mul_pos (hn i hi) (Real.exp_pos _)
  have := mul_pos h1 h2
  linarith

theorem charge_anti {n : ι → ℝ} (hs : s.Nonempty) (hq : ∀ i ∈ s, q i ≠ 0) (hn : ∀ i ∈ s, 0 < n i) (Qf : ℝ) : StrictAnti (charge s q n Qf) := by
  intro a b hab
  unfold charge
  refine add_lt_add_right (Finset.sum_lt_sum_of_nonempty hs fun i hi => ?_) Qf
  have h0 := hn i hi
  rcases lt_or_gt_of_ne (hq i hi) with h | h
  · have : Real.exp (-q i * a) < Real.exp (-q i * b) := Real.exp_lt_exp.2 (by nlinarith)
    have := mul_lt_mul_of_pos_left this h0
    nlinarith
  · have : Real.exp (-q i * b) < Real.exp (-q i * a) := Real.exp_lt_exp.2 (by nlinarith)
    have := mul_lt_mul_of_pos_left this h0
    nlinarith

theorem charge_cont (n : ι → ℝ) (Qf : ℝ) : Continuous (charge s q n Qf) :=
  continuous_iff_continuousAt.2 fun b => (charge_hasDeriv n Qf b).continuousAt

/-- The root moves with the numbers of molecules as the code assumes. -/
theorem root_deriv {n : ℝ → ι → ℝ} {n' : ι → ℝ} {β : ℝ → ℝ} {Qf u : ℝ} (hs : s.Nonempty) (hq : ∀ i ∈ s, q i ≠ 0) (hn : ∀ i ∈ s, HasDerivAt (fun v => n v i) (n' i) u)
    (hp : ∀ i ∈ s, 0 < n u i) (hr : ∀ᶠ v in 𝓝 u, charge s q (n v) Qf (β v) = 0) :
    HasDerivAt β (-(∑ i ∈ s, q i * (n' i * Real.exp (-q i * β u))) / chargeD s q (n u) (β u)) u := by
  have hpos : ∀ᶠ v in 𝓝 u, ∀ i ∈ s, 0 < n v i :=
    (Filter.eventually_all_finset _).2 fun i hi => (hn i hi).continuousAt.eventually (lt_mem_nhds (hp i hi))
  have hG : ∀ b : ℝ, HasDerivAt (fun v => charge s q (n v) Qf b) (∑ i ∈ s, q i * (n' i * Real.exp (-q i * b))) u := by
    intro b
    unfold charge
    refine HasDerivAt.const_add Qf ?_
    exact HasDerivAt.fun_sum fun i hi => ((hn i hi).mul_const _).const_mul _
  have h0 : charge s q (n u) Qf (β u) = 0 := hr.self_of_nhds
  have hc : ContinuousAt β u := by
    rw [ContinuousAt, tendsto_order]
    constructor
    · intro a ha
      have h1 : 0 < charge s q (n u) Qf a := by rw [← h0]; exact charge_anti hs hq hp Qf ha
      filter_upwards [(hG a).continuousAt.eventually (lt_mem_nhds h1), hpos, hr] with v e1 e2 e3
      rw [← e3] at e1
      exact (charge_anti hs hq e2 Qf).lt_iff_gt.1 e1
    · intro a ha
      have h1 : charge s q (n u) Qf a < 0 := by rw [← h0]; exact charge_anti hs hq hp Qf ha
      filter_upwards [(hG a).continuousAt.eventually (gt_mem_nhds h1), hpos, hr] with v e1 e2 e3
      rw [← e3] at e1
      exact (charge_anti hs hq e2 Qf).lt_iff_gt.1 e1
  set D : ℝ → ℝ := fun v => ∑ i ∈ s, q i * (n v i * Real.exp (-q i * β u)) * (-q i) * dslope Real.exp 0 (-q i * (β v - β u)) with hD
  have hDu : D u = chargeD s q (n u) (β u) := by
    simp only [hD, sub_self, mul_zero, dslope_same, Real.deriv_exp, Real.exp_zero, mul_one, chargeD]
    exact Finset.sum_congr rfl fun i _ => by ring
  have hDc : ContinuousAt D u := by
    refine tendsto_finsetSum s fun i hi => ?_
    have hx : ContinuousAt (fun v => -q i * (β v - β u)) u := continuousAt_const.mul (hc.sub continuousAt_const)
    have hd : ContinuousAt (dslope Real.exp 0) (-q i * (β u - β u)) := by
      rw [sub_self, mul_zero]; exact continuousAt_dslope_same.2 Real.differentiableAt_exp
    exact (((continuousAt_const.mul ((hn i hi).continuousAt.mul continuousAt_const)).mul continuousAt_const).mul (ContinuousAt.comp (f := fun v => -q i * (β v - β u)) hd hx))
  have hne : chargeD s q (n u) (β u) ≠ 0 := (chargeD_neg hs hq hp _).ne
  have hid : ∀ v, charge s q (n v) Qf (β v) - charge s q (n v) Qf (β u) = (β v - β u) * D v := by
    intro v
    simp only [charge, hD, add_sub_add_left_eq_sub, ← Finset.sum_sub_distrib, Finset.mul_sum]
    refine Finset.sum_congr rfl fun i _ => ?_
    have e := sub_smul_dslope Real.exp 0 (-q i * (β v - β u))
    rw [sub_zero, smul_eq_mul, Real.exp_zero] at e
    have e2 : Real.exp (-q i * β v) = Real.exp (-q i * β u) * Real.exp (-q i * (β v - β u)) := by rw [← Real.exp_add]; congr 1; ring
    rw [e2]
    linear_combination (-q i * n v i * Real.exp (-q i * β u)) * e
  have hDne : ∀ᶠ v in 𝓝 u, D v ≠ 0 := hDc.eventually_ne (by rw [hDu]; exact hne)
  have hβ : ∀ᶠ v in 𝓝 u, β v = β u + charge s q (n v) Qf (β u) * (-(D v)⁻¹) := by
    filter_upwards [hDne, hr] with v h1 h2
    have := hid v
    rw [h2, zero_sub] at this
    field_simp
    linarith
  have hE : HasDerivAt (fun v => charge s q (n v) Qf (β u) * (-(D v)⁻¹)) ((∑ i ∈ s, q i * (n' i * Real.exp (-q i * β u))) * (-(D u)⁻¹)) u := by
    rw [hasDerivAt_iff_tendsto_slope]
    have h1 := hasDerivAt_iff_tendsto_slope.1 (hG (β u))
    have h2 : Tendsto (fun v => -(D v)⁻¹) (𝓝[≠] u) (𝓝 (-(D u)⁻¹)) := ((hDc.inv₀ (by rw [hDu]; exact hne)).neg).mono_left nhdsWithin_le_nhds
    refine (h1.mul h2).congr fun v => ?_
    simp only [slope_def_field, h0, zero_mul, sub_zero]
    ring
  have := (hE.const_add (β u)).congr_of_eventuallyEq hβ
  refine this.congr_deriv ?_
  rw [hDu, div_eq_mul_inv]
  ring

/-- The charge becomes positive at large negative potential. -/
theorem charge_pos {n : ι → ℝ} (hq : ∀ i ∈ s, q i ≠ 0) (hn : ∀ i ∈ s, 0 < n i) {Qf : ℝ} (h : (∃ i ∈ s, 0 < q i) ∨ 0 < Qf) : ∃ b, 0 < charge s q n Qf b := by
  classical
  by_cases hp : ∃ i ∈ s, 0 < q i
  · obtain ⟨i, hi, h0⟩ := hp
    have ht : Tendsto (fun b : ℝ => q i * (n i * Real.exp (-q i * b))) atBot atTop := by
      have h1 : Tendsto (fun b : ℝ => -q i * b) atBot atTop := tendsto_id.const_mul_atBot_of_neg (by linarith)
      exact ((Real.tendsto_exp_atTop.comp h1).const_mul_atTop (hn i hi)).const_mul_atTop h0
    obtain ⟨b, hb, hb0⟩ := ((ht.eventually_gt_atTop (∑ j ∈ s, |q j| * n j + |Qf|)).and (eventually_le_atBot 0)).exists
    refine ⟨b, ?_⟩
    unfold charge
    have hle : ∀ j ∈ s, -(|q j| * n j) ≤ q j * (n j * Real.exp (-q j * b)) := by
      intro j hj
      have hnj := hn j hj
      rcases lt_or_gt_of_ne (hq j hj) with h | h
      · have : Real.exp (-q j * b) ≤ 1 := Real.exp_le_one_iff.2 (by nlinarith)
        rw [abs_of_neg h]
        nlinarith [mul_le_mul_of_nonneg_left this hnj.le, mul_nonneg (mul_nonneg hnj.le (by linarith : (0:ℝ) ≤ -q j)) (by linarith : 0 ≤ 1 - Real.exp (-q j * b))]
      · have := mul_pos h (mul_pos hnj (Real.exp_pos (-q j * b)))
        have := mul_nonneg (abs_nonneg (q j)) hnj.le
        linarith
    have hsplit := Finset.add_sum_erase s (fun j => q j * (n j * Real.exp (-q j * b))) hi
    have h2 : ∑ j ∈ s.erase i, -(|q j| * n j) ≤ ∑ j ∈ s.erase i, q j * (n j * Real.exp (-q j * b)) := Finset.sum_le_sum fun j hj => hle j (Finset.mem_of_mem_erase hj)
    have h3 := Finset.add_sum_erase s (fun j => |q j| * n j) hi
    rw [Finset.sum_neg_distrib] at h2
    have h4 := mul_nonneg (abs_nonneg (q i)) (hn i hi).le
    have h5 := neg_abs_le Qf
    linarith
  · have hQ : 0 < Qf := h.resolve_left hp
    have ht : Tendsto (charge s q n Qf) atBot (𝓝 (Qf + ∑ i ∈ s, 0)) := by
      unfold charge
      refine tendsto_const_nhds.add (tendsto_finsetSum s fun i hi => ?_)
      have hi0 : q i < 0 := lt_of_le_of_ne (not_lt.1 fun h' => hp ⟨i, hi, h'⟩) (hq i hi)
      have h1 : Tendsto (fun b : ℝ => -q i * b) atBot atBot := tendsto_id.const_mul_atBot (by linarith)
      have := ((Real.tendsto_exp_atBot.comp h1).const_mul (n i)).const_mul (q i)
      simpa using this
    rw [Finset.sum_const_zero, add_zero] at ht
    exact (ht.eventually (lt_mem_nhds hQ)).exists

theorem charge_flip (n : ι → ℝ) (Qf b : ℝ) : charge s (fun i => -q i) n (-Qf) (-b) = -charge s q n Qf b := by
  unfold charge
  rw [neg_add, ← Finset.sum_neg_distrib]
  congr 1
  refine Finset.sum_congr rfl fun i _ => ?_
  rw [show - -q i * -b = -q i * b by ring]; ring

theorem charge_neg {n : ι → ℝ} (hq : ∀ i ∈ s, q i ≠ 0) (hn : ∀ i ∈ s, 0 < n i) {Qf : ℝ} (h : (∃ i ∈ s, q i < 0) ∨ Qf < 0) : ∃ b, charge s q n Qf b < 0 := by
  obtain ⟨b, hb⟩ := charge_pos (s := s) (q := fun i => -q i) (n := n) (Qf := -Qf) (fun i hi => neg_ne_zero.2 (hq i hi)) hn
    (h.imp (fun ⟨i, hi, h⟩ => ⟨i, hi, by linarith⟩) fun h => by linarith)
  refine ⟨-b, ?_⟩
  have := charge_flip (s := s) (q := q) n Qf (-b)
  rw [neg_neg] at this
  linarith

theorem root_exists {n : ι → ℝ} (hq : ∀ i ∈ s, q i ≠ 0) (hn : ∀ i ∈ s, 0 < n i) {Qf : ℝ} (h1 : (∃ i ∈ s, 0 < q i) ∨ 0 < Qf) (h2 : (∃ i ∈ s, q i < 0) ∨ Qf < 0) :
    ∃ b, charge s q n Qf b = 0 := by
  obtain ⟨a, ha⟩ := charge_pos hq hn h1
  obtain ⟨b, hb⟩ := charge_neg hq hn h2
  exact mem_range_of_exists_le_of_exists_ge (charge_cont n Qf) ⟨b, hb.le⟩ ⟨a, ha.le⟩

/-- No neutral state: the charge keeps its sign. -/
theorem root_not {n : ι → ℝ} (hn : ∀ i ∈ s, 0 < n i) {Qf : ℝ} (hs : s.Nonempty) (hp : ∀ i ∈ s, q i < 0) (hQ : Qf ≤ 0) (b : ℝ) : charge s q n Qf b < 0 := by
  unfold charge
  have := Finset.sum_neg (f := fun i => q i * (n i * Real.exp (-q i * b))) (fun i hi => mul_neg_of_neg_of_pos (hp i hi) (mul_pos (hn i hi) (Real.exp_pos _))) hs
  linarith

end
end Jdftx.Fluid
