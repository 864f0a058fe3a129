import Verif.Model.NonlinearPCM
import Mathlib.Topology.Order.IntermediateValue
import Mathlib.Analysis.SpecialFunctions.ExpDeriv
import Mathlib.Analysis.SpecificLimits.Basic
import Mathlib.Analysis.Complex.ExponentialBounds
import Mathlib.Tactic.Linarith
import Mathlib.Tactic.FieldSimp
import Mathlib.Tactic.Positivity

/-!
# Lemmas for C80: loops and root finding
-/
namespace Jdftx.NPCM
open Filter Topology
noncomputable section

theorem whileF_mono {α : Type} (cond : α → Prop) [DecidablePred cond] (step : α → α) (n k : Nat) (a b : α) (hk : n ≤ k)
    (h : whileF cond step n a = some b) : whileF cond step k a = some b := by
  induction n generalizing a k with
  | zero =>
    unfold whileF at h
    split at h
    · cases h
    · next hc =>
      cases k with
      | zero => simpa [whileF, hc] using h
      | succ k => simpa [whileF, hc] using h
  | succ n ih =>
    obtain ⟨k, rfl⟩ : ∃ k', k = k' + 1 := ⟨k - 1, by omega⟩
    unfold whileF at h ⊢
    split at h
    · next hc => rw [if_pos hc]; exact ih k _ (by omega) h
    · next hc => rw [if_neg hc]; exact h

theorem whileF_inv {α : Type} (cond : α → Prop) [DecidablePred cond] (step : α → α) (P : α → Prop)
    (hP : ∀ a, P a → cond a → P (step a)) (n : Nat) (a b : α) (ha : P a) (h : whileF cond step n a = some b) : P b ∧ ¬cond b := by
  induction n generalizing a with
  | zero =>
    unfold whileF at h
    split at h
    · cases h
    · next hc => injection h with h; subst h; exact ⟨ha, hc⟩
  | succ n ih =>
    unfold whileF at h
    split at h
    · next hc => exact ih _ (hP a ha hc) h
    · next hc => injection h with h; subst h; exact ⟨ha, hc⟩

theorem whileF_stops {α : Type} (cond : α → Prop) [DecidablePred cond] (step : α → α) (n : Nat) (a : α)
    (h : ¬cond (step^[n] a)) : ∃ b, whileF cond step n a = some b := by
  induction n generalizing a with
  | zero => exact ⟨a, by unfold whileF; rw [if_neg (by simpa using h)]⟩
  | succ n ih =>
    unfold whileF
    by_cases hc : cond a
    · rw [if_pos hc]; exact ih _ (by simpa using h)
    · rw [if_neg hc]; exact ⟨a, rfl⟩

/-- A loop that stops after some number of steps returns, with enough fuel, always the same state; an invariant holds there, and the condition fails. -/
theorem whileF_ok {α : Type} (cond : α → Prop) [DecidablePred cond] (step : α → α) (P : α → Prop) (a : α) (ha : P a)
    (hP : ∀ a, P a → cond a → P (step a)) (n : Nat) (h : ¬cond (step^[n] a)) :
    ∃ b, P b ∧ ¬cond b ∧ ∀ fuel ≥ n, whileF cond step fuel a = some b := by
  obtain ⟨b, hb⟩ := whileF_stops cond step n a h
  have := whileF_inv cond step P hP n a b ha hb
  exact ⟨b, this.1, this.2, fun fuel hf => whileF_mono cond step n fuel a b hf hb⟩

theorem bisect_ok (f : ℝ → ℝ) (c dx lo hi : ℝ) (hdx : 0 < dx) (hl : lo ≤ hi) (h1 : f lo ≤ c) (h2 : c ≤ f hi) :
    ∃ n x lo' hi', (∀ fuel ≥ n, bisect f c dx fuel lo hi = some x) ∧ lo ≤ lo' ∧ lo' ≤ x ∧ x ≤ hi' ∧ hi' ≤ hi ∧ f lo' ≤ c ∧ c ≤ f hi' ∧
      hi' - lo' ≤ dx ∧ x = 0.5 * (hi' + lo') := by
  let step : ℝ × ℝ → ℝ × ℝ := fun s => if f (0.5 * (s.2 + s.1)) < c then (0.5 * (s.2 + s.1), s.2) else (s.1, 0.5 * (s.2 + s.1))
  have width : ∀ n (s : ℝ × ℝ), (step^[n] s).2 - (step^[n] s).1 = (s.2 - s.1) * (1 / 2) ^ n := by
    intro n
    induction n with
    | zero => intro s; simp
    | succ n ih =>
      intro s
      rw [Function.iterate_succ_apply, ih]
      have : (step s).2 - (step s).1 = (s.2 - s.1) * (1 / 2) := by
        simp only [step]; split <;> (simp only; ring)
      rw [this]; ring
  obtain ⟨n, hn⟩ : ∃ n : Nat, (hi - lo) * (1 / 2) ^ n ≤ dx := by
    have := (tendsto_pow_atTop_nhds_zero_of_lt_one (r := (1/2 : ℝ)) (by norm_num) (by norm_num)).const_mul (hi - lo)
    rw [mul_zero] at this
    exact ((this.eventually (gt_mem_nhds hdx)).exists).imp fun n h => h.le
  obtain ⟨s, hs, hc, hr⟩ := whileF_ok (fun s : ℝ × ℝ => s.2 - s.1 > dx) step
    (fun s => lo ≤ s.1 ∧ s.1 ≤ s.2 ∧ s.2 ≤ hi ∧ f s.1 ≤ c ∧ c ≤ f s.2) (lo, hi) ⟨le_refl _, hl, le_refl _, h1, h2⟩
    (by
      rintro ⟨a, b⟩ ⟨p1, p2, p3, p4, p5⟩ _
      simp only at p1 p2 p3 p4 p5
      simp only [step]
      split
      · next h => exact ⟨by simp only; linarith, by simp only; linarith, p3, h.le, p5⟩
      · next h => exact ⟨p1, by simp only; linarith, by simp only; linarith, p4, not_lt.1 h⟩) n (by simp only [width]; exact not_lt.2 hn)
  obtain ⟨q1, q2, q3, q4, q5⟩ := hs
  refine ⟨n, 0.5 * (s.2 + s.1), s.1, s.2, fun fuel hf => ?_, q1, by linarith, by linarith, q3, q4, q5, not_lt.1 hc, rfl⟩
  unfold bisect
  rw [hr fuel hf]; rfl

/-! ### Packing fractions -/

variable (m : Screening)

theorem f_x_eq (x : ℝ) (hx : x ≠ 1) (h0 : m.x0 ≠ 1) : m.f_x x = 4 / (m.x0 * (1 - m.x0)) * ((x - m.x0) / (1 - x) ^ 3) := by
  have e1 : 1 - x ≠ 0 := sub_ne_zero.2 hx.symm
  have e2 : 1 - m.x0 ≠ 0 := sub_ne_zero.2 h0.symm
  unfold Screening.f_x Screening.comb
  by_cases h : m.x0 = 0
  · simp [h]
  · field_simp; ring

theorem rootFunc_cont (V x : ℝ) (hx : x ≠ 1) : ContinuousAt (fun x => m.rootFunc x V) x := by
  have e1 : 1 - x ≠ 0 := sub_ne_zero.2 hx.symm
  unfold Screening.rootFunc Screening.f_x Screening.comb
  fun_prop (disch := exact e1)

theorem f_x_top (h0 : 0 < m.x0) (h1 : m.x0 < 1) : Tendsto m.f_x (𝓝[<] 1) atTop := by
  have hev : m.f_x =ᶠ[𝓝[<] 1] fun x => (4 / (m.x0 * (1 - m.x0)) * (x - m.x0)) * ((1 - x) ^ 3)⁻¹ := by
    filter_upwards [self_mem_nhdsWithin] with x hx
    have hx : x < 1 := hx
    rw [f_x_eq m x hx.ne h1.ne]; ring
  refine Tendsto.congr' hev.symm ?_
  have hc : Tendsto (fun x : ℝ => 4 / (m.x0 * (1 - m.x0)) * (x - m.x0)) (𝓝[<] 1) (𝓝 (4 / (m.x0 * (1 - m.x0)) * (1 - m.x0))) :=
    ((continuous_const.mul (continuous_id.sub continuous_const)).tendsto 1).mono_left nhdsWithin_le_nhds
  refine Tendsto.pos_mul_atTop ?_ hc ?_
  · have : 0 < 1 - m.x0 := by linarith
    positivity
  · have hz : Tendsto (fun x : ℝ => (1 - x) ^ 3) (𝓝[<] 1) (𝓝[>] 0) := by
      refine tendsto_nhdsWithin_iff.2 ⟨?_, ?_⟩
      · have : Tendsto (fun x : ℝ => (1 - x) ^ 3) (𝓝 1) (𝓝 ((1 - 1) ^ 3)) := (by fun_prop : Continuous fun x : ℝ => (1 - x) ^ 3).tendsto 1
        rw [show ((1 : ℝ) - 1) ^ 3 = 0 by norm_num] at this
        exact this.mono_left nhdsWithin_le_nhds
      · filter_upwards [self_mem_nhdsWithin] with x hx
        have hx : x < 1 := hx
        have : 0 < 1 - x := by linarith
        show (0 : ℝ) < (1 - x) ^ 3
        positivity
    exact tendsto_inv_nhdsGT_zero.comp hz

theorem term_zero (h0 : 0 < m.x0) (h1 : m.x0 < 1) (a V : ℝ) (ha : 0 ≤ a) :
    Tendsto (fun x => a * Real.exp (V - m.f_x x * a)) (𝓝[<] 1) (𝓝 0) := by
  rcases ha.eq_or_lt with rfl | ha
  · simp
  · have : Tendsto (fun x => V - m.f_x x * a) (𝓝[<] 1) atBot := by
      have h2 : Tendsto (fun x => m.f_x x * a) (𝓝[<] 1) atTop := (f_x_top m h0 h1).atTop_mul_const ha
      simpa [sub_eq_add_neg] using tendsto_atBot_add_const_left _ V (tendsto_neg_atTop_atBot.comp h2)
    simpa using (Real.tendsto_exp_atBot.comp this).const_mul a

theorem rootFunc_top (h0 : 0 < m.x0) (h1 : m.x0 < 1) (hp : 0 ≤ m.x0plus) (hm : 0 ≤ m.x0minus) (V : ℝ) :
    Tendsto (fun x => m.rootFunc x V) (𝓝[<] 1) (𝓝 1) := by
  have hx : Tendsto (fun x : ℝ => x) (𝓝[<] 1) (𝓝 1) := tendsto_id.mono_left nhdsWithin_le_nhds
  have := hx.sub ((term_zero m h0 h1 m.x0plus (-V) hp).add (term_zero m h0 h1 m.x0minus V hm))
  simpa [Screening.rootFunc] using this

theorem rootFunc_zero (h0 : 0 < m.x0) (hp : 0 ≤ m.x0plus) (hm : 0 ≤ m.x0minus) (V : ℝ) : m.rootFunc 0 V < 0 := by
  unfold Screening.rootFunc
  have : 0 < m.x0plus ∨ 0 < m.x0minus := by
    by_contra h
    push Not at h
    unfold Screening.x0 at h0
    linarith [h.1, h.2]
  have e1 := Real.exp_pos (-V - m.f_x 0 * m.x0plus)
  have e2 := Real.exp_pos (V - m.f_x 0 * m.x0minus)
  rcases this with h | h
  · have a := mul_pos h e1; have b := mul_nonneg hm e2.le; linarith
  · have a := mul_nonneg hp e1.le; have b := mul_pos h e2; linarith

/-- The bisection for the packing fraction ends, and its result is close to a solution. -/
theorem x_from_V_ok (h0 : 0 < m.x0) (h1 : m.x0 < 1) (hp : 0 ≤ m.x0plus) (hm : 0 ≤ m.x0minus) (V : ℝ) :
    ∃ n x r, (∀ fuel ≥ n, m.x_from_V fuel V = some x) ∧ 0 < x ∧ x < 1 ∧ 0 < r ∧ r < 1 ∧ m.rootFunc r V = 0 ∧ |x - r| ≤ 1e-13 := by
  -- lower end
  obtain ⟨n1, hn1⟩ : ∃ n, ¬ m.rootFunc ((fun x : ℝ => x * 0.5)^[n] m.x0) V > 0 := by
    have it : ∀ n, (fun x : ℝ => x * 0.5)^[n] m.x0 = m.x0 * (1 / 2) ^ n := by
      intro n; induction n with
      | zero => simp
      | succ n ih => rw [Function.iterate_succ_apply', ih]; ring
    have t := (tendsto_pow_atTop_nhds_zero_of_lt_one (r := (1/2 : ℝ)) (by norm_num) (by norm_num)).const_mul m.x0
    rw [mul_zero] at t
    have c := (rootFunc_cont m V 0 (by norm_num)).tendsto.comp t
    obtain ⟨n, hn⟩ := (c.eventually (gt_mem_nhds (rootFunc_zero m h0 hp hm V))).exists
    exact ⟨n, by rw [it]; exact not_lt.2 hn.le⟩
  obtain ⟨xLo, ⟨l0, l1⟩, lc, lr⟩ := whileF_ok (fun x => m.rootFunc x V > 0) (fun x => x * 0.5) (fun x => 0 < x ∧ x < 1) m.x0 ⟨h0, h1⟩
    (fun a ha _ => ⟨by linarith [ha.1], by linarith [ha.1, ha.2]⟩) n1 hn1
  -- upper end
  obtain ⟨n2, hn2⟩ : ∃ n, ¬ m.rootFunc ((fun x : ℝ => 0.5 * (1 + x))^[n] xLo) V < 0 := by
    have it : ∀ n, (fun x : ℝ => 0.5 * (1 + x))^[n] xLo = 1 - (1 - xLo) * (1 / 2) ^ n := by
      intro n; induction n with
      | zero => simp
      | succ n ih => rw [Function.iterate_succ_apply', ih]; ring
    have t : Tendsto (fun n : Nat => 1 - (1 - xLo) * (1 / 2 : ℝ) ^ n) atTop (𝓝[<] 1) := by
      refine tendsto_nhdsWithin_iff.2 ⟨?_, ?_⟩
      · have t := ((tendsto_pow_atTop_nhds_zero_of_lt_one (r := (1/2 : ℝ)) (by norm_num) (by norm_num)).const_mul (1 - xLo)).const_sub 1
        simpa using t
      · filter_upwards with n
        show 1 - (1 - xLo) * (1 / 2 : ℝ) ^ n < 1
        have : 0 < (1 - xLo) * (1 / 2 : ℝ) ^ n := by
          have : 0 < 1 - xLo := by linarith
          positivity
        linarith
    have c := (rootFunc_top m h0 h1 hp hm V).comp t
    obtain ⟨n, hn⟩ := (c.eventually (lt_mem_nhds (show (0 : ℝ) < 1 by norm_num))).exists
    have hn : 0 < m.rootFunc (1 - (1 - xLo) * (1 / 2 : ℝ) ^ n) V := hn
    exact ⟨n, by rw [it]; exact not_lt.2 hn.le⟩
  obtain ⟨xHi, ⟨u0, u1⟩, uc, ur⟩ := whileF_ok (fun x => m.rootFunc x V < 0) (fun x => 0.5 * (1 + x)) (fun x => xLo ≤ x ∧ x < 1) xLo ⟨le_refl _, l1⟩
    (fun a ha _ => ⟨by linarith [ha.1, ha.2], by linarith [ha.1, ha.2]⟩) n2 hn2
  -- bisection
  obtain ⟨n3, x, lo, hi, hr, b1, b2, b3, b4, b5, b6, b7, b8⟩ := bisect_ok (fun x => m.rootFunc x V) 0 (0.5 * (xHi + xLo) * 1e-13) xLo xHi
    (by have : 0 < xHi + xLo := by linarith
        positivity) u0 (not_lt.1 lc) (not_lt.1 uc)
  have hcont : ContinuousOn (fun x => m.rootFunc x V) (Set.Icc lo hi) := fun y hy =>
    (rootFunc_cont m V y (by have := hy.2; linarith [b4] : y < 1).ne).continuousWithinAt
  obtain ⟨r, hr1, hr2⟩ := intermediate_value_Icc (by linarith : lo ≤ hi) hcont (show (0 : ℝ) ∈ Set.Icc (m.rootFunc lo V) (m.rootFunc hi V) from ⟨b5, b6⟩)
  refine ⟨max n1 (max n2 n3), x, r, ?_, by linarith, by linarith, by linarith [hr1.1], by linarith [hr1.2], hr2, ?_⟩
  · intro fuel hf
    have g1 : n1 ≤ fuel := le_trans (le_max_left _ _) hf
    have g2 : n2 ≤ fuel := le_trans (le_trans (le_max_left _ _) (le_max_right _ _)) hf
    have g3 : n3 ≤ fuel := le_trans (le_trans (le_max_right _ _) (le_max_right _ _)) hf
    unfold Screening.x_from_V
    rw [lr fuel g1]
    show (whileF (fun x => m.rootFunc x V < 0) (fun x => 0.5 * (1 + x)) fuel xLo).bind _ = _
    rw [ur fuel g2]
    exact hr fuel g3
  · have w : hi - lo ≤ 1e-13 := le_trans b7 (by nlinarith)
    rw [abs_le]
    exact ⟨by linarith [hr1.2], by linarith [hr1.1]⟩

/-- With bulk packing fraction at most 1/3, the hard-sphere potential increases with packing. -/
theorem f_x_mono (h0 : 0 < m.x0) (h3 : m.x0 ≤ 1 / 3) (x y : ℝ) (hx : 0 ≤ x) (hxy : x ≤ y) (hy : y < 1) : m.f_x x ≤ m.f_x y := by
  rw [f_x_eq m x (by linarith) (by linarith), f_x_eq m y (by linarith) (by linarith)]
  have hc : 0 ≤ 4 / (m.x0 * (1 - m.x0)) := by
    have : 0 < 1 - m.x0 := by linarith
    positivity
  refine mul_le_mul_of_nonneg_left ?_ hc
  have a : 0 < 1 - x := by linarith
  have b : 0 < 1 - y := by linarith
  rw [div_le_div_iff₀ (by positivity) (by positivity)]
  set u := 1 - x with hu
  set v := 1 - y with hv
  set c := m.x0
  have ex : x - c = (1 - c) - u := by rw [hu]; ring
  have ey : y - c = (1 - c) - v := by rw [hv]; ring
  rw [ex, ey]
  have huv : v ≤ u := by linarith
  have hu1 : u ≤ 1 := by linarith
  -- ((1-c) - u) v³ ≤ ((1-c) - v) u³
  have key : ((1 - c) - v) * u ^ 3 - ((1 - c) - u) * v ^ 3 = (u - v) * ((1 - c) * (u ^ 2 + u * v + v ^ 2) - u * v * (u + v)) := by ring
  have k2 : 0 ≤ (1 - c) * (u ^ 2 + u * v + v ^ 2) - u * v * (u + v) := by
    have : 2 / 3 ≤ 1 - c := by linarith
    have q : 0 ≤ u ^ 2 + u * v + v ^ 2 := by positivity
    have : 2 / 3 * (u ^ 2 + u * v + v ^ 2) ≤ (1 - c) * (u ^ 2 + u * v + v ^ 2) := mul_le_mul_of_nonneg_right this q
    have uv : u * v * (u + v) ≤ u * v * 2 := mul_le_mul_of_nonneg_left (by linarith) (by positivity)
    nlinarith [sq_nonneg (u - v)]
  nlinarith [mul_nonneg (sub_nonneg.2 huv) k2]

theorem rootFunc_strictMono (h0 : 0 < m.x0) (h3 : m.x0 ≤ 1 / 3) (hp : 0 ≤ m.x0plus) (hm : 0 ≤ m.x0minus) (V x y : ℝ) (hx : 0 ≤ x) (hxy : x < y)
    (hy : y < 1) : m.rootFunc x V < m.rootFunc y V := by
  have hf := f_x_mono m h0 h3 x y hx hxy.le hy
  unfold Screening.rootFunc
  have a : m.x0plus * Real.exp (-V - m.f_x y * m.x0plus) ≤ m.x0plus * Real.exp (-V - m.f_x x * m.x0plus) :=
    mul_le_mul_of_nonneg_left (Real.exp_le_exp.2 (by nlinarith)) hp
  have b : m.x0minus * Real.exp (V - m.f_x y * m.x0minus) ≤ m.x0minus * Real.exp (V - m.f_x x * m.x0minus) :=
    mul_le_mul_of_nonneg_left (Real.exp_le_exp.2 (by nlinarith)) hm
  linarith

theorem f_deriv (x : ℝ) (hx : x ≠ 1) (h1 : m.x0 ≠ 1) : HasDerivAt m.f (m.f_x x) x := by
  have e1 : 1 - x ≠ 0 := sub_ne_zero.2 hx.symm
  have e2 : 1 - m.x0 ≠ 0 := sub_ne_zero.2 h1.symm
  have hc : HasDerivAt m.comb ((1 / (1 - x)) * (1 / (1 - x))) x := by
    have i : HasDerivAt (fun x : ℝ => 1 / (1 - x)) (1 / (1 - x) ^ 2) x := by
      have := ((hasDerivAt_id x).const_sub 1).fun_inv e1
      simp only [id] at this
      simpa [one_div] using this
    have := (((hasDerivAt_id x).sub_const m.x0).mul i).mul_const (1 / (1 - m.x0))
    refine this.congr_deriv ?_
    simp only [id]
    field_simp; ring
  have := ((hc.const_mul (2 / m.x0)).mul hc)
  refine this.congr_deriv ?_
  unfold Screening.f_x; ring

/-! ### Dielectric -/

theorem sinh_le (e : ℝ) (he : 0 ≤ e) : Real.sinh e ≤ e * Real.cosh e := by
  have hd : ∀ x : ℝ, HasDerivAt (fun x => x * Real.cosh x - Real.sinh x) (x * Real.sinh x) x := by
    intro x
    refine (((hasDerivAt_id x).mul (Real.hasDerivAt_cosh x)).sub (Real.hasDerivAt_sinh x)).congr_deriv ?_
    simp only [id]; ring
  have hm : MonotoneOn (fun x : ℝ => x * Real.cosh x - Real.sinh x) (Set.Ici 0) := by
    refine monotoneOn_of_deriv_nonneg (convex_Ici 0) (fun x _ => (hd x).continuousAt.continuousWithinAt)
      (fun x _ => (hd x).differentiableAt.differentiableWithinAt) ?_
    intro x hx
    rw [interior_Ici] at hx
    have hx : 0 < x := hx
    rw [(hd x).deriv]
    exact mul_nonneg hx.le (Real.sinh_nonneg_iff.2 hx.le)
  have := hm (Set.mem_Ici.2 le_rfl) (Set.mem_Ici.2 he) he
  simp at this
  linarith

theorem cosh_le (e : ℝ) (he : 0 ≤ e) : 3 * (e * Real.cosh e - Real.sinh e) ≤ e * e * Real.sinh e := by
  have hd : ∀ x : ℝ, HasDerivAt (fun x => x * x * Real.sinh x - 3 * (x * Real.cosh x - Real.sinh x)) (x * (x * Real.cosh x - Real.sinh x)) x := by
    intro x
    refine ((((hasDerivAt_id x).mul (hasDerivAt_id x)).mul (Real.hasDerivAt_sinh x)).sub
      ((((hasDerivAt_id x).mul (Real.hasDerivAt_cosh x)).sub (Real.hasDerivAt_sinh x)).const_mul 3)).congr_deriv ?_
    simp only [id, Pi.mul_apply]; ring
  have hm : MonotoneOn (fun x : ℝ => x * x * Real.sinh x - 3 * (x * Real.cosh x - Real.sinh x)) (Set.Ici 0) := by
    refine monotoneOn_of_deriv_nonneg (convex_Ici 0) (fun x _ => (hd x).continuousAt.continuousWithinAt)
      (fun x _ => (hd x).differentiableAt.differentiableWithinAt) ?_
    intro x hx
    rw [interior_Ici] at hx
    have hx : 0 < x := hx
    rw [(hd x).deriv]
    exact mul_nonneg hx.le (by linarith [sinh_le x hx.le])
  have := hm (Set.mem_Ici.2 le_rfl) (Set.mem_Ici.2 he) he
  simp at this
  linarith

variable (d : Dielectric)

theorem frac_bounds (e : ℝ) (he : 0 ≤ e) : 0 ≤ d.frac e ∧ d.frac e ≤ 1 / 3 := by
  unfold Dielectric.frac
  simp only
  split
  · norm_num
  split
  · next h =>
    have q0 : 0 ≤ e * e := by positivity
    have q1 : e * e ≤ 0.01 := by nlinarith
    generalize e * e = q at q0 q1
    constructor
    · nlinarith [mul_nonneg q0 q0, mul_nonneg (mul_nonneg q0 q0) (sub_nonneg.2 q1), mul_nonneg q0 (sub_nonneg.2 q1)]
    · have : -1 / 45 + q * (2 / 945 + q * (-1 / 4725)) ≤ 0 := by nlinarith [mul_nonneg q0 q0]
      nlinarith
  · next h =>
    have e0 : 0 < e := by
      have : (1e-1 : ℝ) ≤ e := not_lt.1 h
      linarith
    have s0 : 0 < Real.sinh e := Real.sinh_pos_iff.2 e0
    have eq : (e / Real.tanh e - 1) / (e * e) = (e * Real.cosh e - Real.sinh e) / (e * e * Real.sinh e) := by
      rw [Real.tanh_eq_sinh_div_cosh]
      have := (Real.cosh_pos e).ne'
      have := s0.ne'
      field_simp
    rw [eq]
    constructor
    · exact div_nonneg (by linarith [sinh_le e e0.le]) (by positivity)
    · rw [div_le_div_iff₀ (by positivity) (by norm_num)]
      linarith [cosh_le e e0.le]

theorem x_from_eps_bounds (ha : 0 ≤ d.alpha) (e : ℝ) (he : 0 ≤ e) : e * (1 - d.alpha / 3) ≤ d.x_from_eps e ∧ d.x_from_eps e ≤ e := by
  obtain ⟨h0, h1⟩ := frac_bounds d e he
  unfold Dielectric.x_from_eps
  constructor
  · refine mul_le_mul_of_nonneg_left ?_ he
    nlinarith
  · have : 0 ≤ d.alpha * d.frac e := mul_nonneg ha h0
    nlinarith

theorem eps_from_x_ok (ha : 0 ≤ d.alpha) (h3 : d.alpha < 3) (x : ℝ) (hx : 0 < x) :
    ∃ n eps lo hi, (∀ fuel ≥ n, d.eps_from_x fuel x = some eps) ∧ x ≤ lo ∧ lo ≤ eps ∧ eps ≤ hi ∧ hi ≤ 1.05 * (x / (1 - d.alpha / 3)) ∧
      hi - lo ≤ 1.05e-13 * (x / (1 - d.alpha / 3)) ∧ d.x_from_eps lo ≤ x ∧ x ≤ d.x_from_eps hi := by
  have hb : 0 < 1 - d.alpha / 3 := by linarith
  obtain ⟨xLo, hlo, lc, lr⟩ := whileF_ok (fun e => d.x_from_eps e > x) (fun e => e * 0.95) (fun e => e = x) x rfl
    (fun a ha' hc => absurd hc (not_lt.2 (by rw [ha']; exact (x_from_eps_bounds d ha x hx.le).2))) 0
    (not_lt.2 (x_from_eps_bounds d ha x hx.le).2)
  rw [hlo] at lc lr
  obtain ⟨n2, hn2⟩ : ∃ n, ¬ d.x_from_eps ((fun e : ℝ => e * 1.05)^[n] x) < x := by
    have it : ∀ n, (fun e : ℝ => e * 1.05)^[n] x = x * 1.05 ^ n := by
      intro n; induction n with
      | zero => simp
      | succ n ih => rw [Function.iterate_succ_apply', ih]; ring
    obtain ⟨n, hn⟩ := pow_unbounded_of_one_lt (1 / (1 - d.alpha / 3)) (show (1 : ℝ) < 1.05 by norm_num)
    refine ⟨n, ?_⟩
    rw [it]
    have := (x_from_eps_bounds d ha (x * 1.05 ^ n) (by positivity)).1
    rw [div_lt_iff₀ hb] at hn
    refine not_lt.2 (le_trans ?_ this)
    nlinarith
  obtain ⟨xHi, ⟨u0, u1⟩, uc, ur⟩ := whileF_ok (fun e => d.x_from_eps e < x) (fun e => e * 1.05)
    (fun e => x ≤ e ∧ e ≤ 1.05 * (x / (1 - d.alpha / 3))) x
    ⟨le_rfl, by
      have : x ≤ x / (1 - d.alpha / 3) := by rw [le_div_iff₀ hb]; nlinarith
      linarith⟩
    (fun a ha' hc => ⟨by linarith [ha'.1], by
      have := (x_from_eps_bounds d ha a (by linarith [ha'.1])).1
      have : a < x / (1 - d.alpha / 3) := by rw [lt_div_iff₀ hb]; linarith
      linarith⟩) n2 hn2
  obtain ⟨n3, eps, lo, hi, hr, b1, b2, b3, b4, b5, b6, b7, b8⟩ := bisect_ok d.x_from_eps x (0.5 * (xHi + x) * 1e-13) x xHi
    (by have : 0 < xHi + x := by linarith
        positivity) u0 (not_lt.1 lc) (not_lt.1 uc)
  refine ⟨max n2 n3, eps, lo, hi, ?_, b1, b2, b3, by linarith, by linarith, b5, b6⟩
  intro fuel hf
  unfold Dielectric.eps_from_x
  rw [if_neg hx.ne', lr fuel (Nat.zero_le _)]
  show (whileF (fun e => d.x_from_eps e < x) (fun e => e * 1.05) fuel x).bind _ = _
  rw [ur fuel (le_trans (le_max_left _ _) hf)]
  exact hr fuel (le_trans (le_max_right _ _) hf)

/-- The derivative of `logsinch` is `eps * frac`, up to the truncation of the series. -/
theorem logsinch_deriv (e : ℝ) (he : 0 < e) (h1 : e ≠ 1e-1) (h2 : e ≠ 20) :
    ∃ δ, HasDerivAt d.logsinch (e * d.frac e + δ) e ∧ |δ| ≤ 2.2e-11 ∧ (d.linear ∨ (1e-1 ≤ e ∧ e < 20) → δ = 0) := by
  by_cases hl : d.linear
  · refine ⟨0, ?_, by norm_num, fun _ => rfl⟩
    have e1 : d.logsinch = fun e => e * e * (1 / 6) := by funext e; simp [Dielectric.logsinch, hl]
    have e2 : d.frac e = 1 / 3 := by simp [Dielectric.frac, hl]
    rw [e1, e2]
    refine (((hasDerivAt_id e).mul (hasDerivAt_id e)).mul_const (1 / 6)).congr_deriv ?_
    simp only [id]; ring
  · rcases lt_or_gt_of_ne h1 with h | h
    · refine ⟨e ^ 7 / 4725, ?_, ?_, ?_⟩
      · have ev : d.logsinch =ᶠ[𝓝 e] fun e => e * e * (1 / 6 + e * e * (-1 / 180 + e * e * (1 / 2835))) := by
          filter_upwards [isOpen_Iio.mem_nhds h] with y hy
          have hy : y < 1e-1 := hy
          simp only [Dielectric.logsinch, hl, if_pos hy]; rfl
        refine HasDerivAt.congr_of_eventuallyEq ?_ ev
        have sq : HasDerivAt (fun e : ℝ => e * e) (e + e) e := by
          refine ((hasDerivAt_id e).mul (hasDerivAt_id e)).congr_deriv ?_
          simp only [id]; ring
        have := sq.mul ((sq.mul ((sq.mul_const (1 / 2835 : ℝ)).const_add (-1 / 180))).const_add (1 / 6))
        refine this.congr_deriv ?_
        have e2 : d.frac e = 1 / 3 + e * e * (-1 / 45 + e * e * (2 / 945 + e * e * (-1 / 4725))) := by
          simp only [Dielectric.frac, hl, if_pos h]; rfl
        rw [e2]
        simp only [Pi.mul_apply]
        ring
      · rw [abs_of_nonneg (by positivity)]
        have : e ^ 7 ≤ (1e-1) ^ 7 := pow_le_pow_left₀ he.le h.le 7
        norm_num at this ⊢
        linarith
      · rintro (hh | hh)
        · exact absurd hh hl
        · exact absurd h (not_lt.2 hh.1)
    · have s0 : 0 < Real.sinh e := Real.sinh_pos_iff.2 he
      have e2 : d.frac e = (e / Real.tanh e - 1) / (e * e) := by
        simp only [Dielectric.frac, hl, if_neg (not_lt.2 h.le)]; rfl
      have e3 : e * d.frac e = Real.cosh e / Real.sinh e - 1 / e := by
        rw [e2, Real.tanh_eq_sinh_div_cosh]
        have := (Real.cosh_pos e).ne'
        have := s0.ne'
        have := he.ne'
        field_simp
      rcases lt_or_gt_of_ne h2 with h' | h'
      · refine ⟨0, ?_, by norm_num, fun _ => rfl⟩
        have ev : d.logsinch =ᶠ[𝓝 e] fun e => Real.log (Real.sinh e / e) := by
          filter_upwards [isOpen_Iio.mem_nhds h', isOpen_Ioi.mem_nhds h] with y hy hy2
          have hy : y < 20 := hy
          have hy2 : ¬ y < 1e-1 := not_lt.2 (le_of_lt hy2)
          simp only [Dielectric.logsinch, hl, if_pos hy, if_neg hy2]; rfl
        refine HasDerivAt.congr_of_eventuallyEq ?_ ev
        have := ((Real.hasDerivAt_sinh e).div (hasDerivAt_id e) he.ne').log (by simp only [id, Pi.div_apply]; positivity)
        refine this.congr_deriv ?_
        rw [e3]
        simp only [id, Pi.div_apply]
        have := s0.ne'
        have := he.ne'
        field_simp
        ring
      · refine ⟨1 - Real.cosh e / Real.sinh e, ?_, ?_, ?_⟩
        · have ev : d.logsinch =ᶠ[𝓝 e] fun e => e - Real.log (2 * e) := by
            filter_upwards [isOpen_Ioi.mem_nhds h'] with y hy
            have hy : 20 < y := hy
            have hy2 : ¬ y < 1e-1 := not_lt.2 (by linarith)
            simp only [Dielectric.logsinch, hl, if_neg (not_lt.2 hy.le), if_neg hy2]; rfl
          refine HasDerivAt.congr_of_eventuallyEq ?_ ev
          have := (hasDerivAt_id e).sub (((hasDerivAt_id e).const_mul 2).log (by simp only [id]; positivity))
          refine this.congr_deriv ?_
          rw [e3]
          simp only [id]
          have := he.ne'
          field_simp
          ring
        · have : 1 - Real.cosh e / Real.sinh e = -(Real.exp (-e) / Real.sinh e) := by
            rw [Real.exp_neg, ← Real.exp_neg, ← Real.cosh_sub_sinh]
            field_simp; ring
          rw [this, abs_neg, abs_of_nonneg (by positivity)]
          have a3 : (2.7 : ℝ) ^ 20 ≤ Real.exp e := by
            have : Real.exp 20 = Real.exp 1 ^ 20 := by rw [← Real.exp_nat_mul]; norm_num
            have a := pow_le_pow_left₀ (by norm_num) (by linarith [Real.exp_one_gt_d9] : (2.7 : ℝ) ≤ Real.exp 1) 20
            rw [← this] at a
            exact a.trans (Real.exp_le_exp.2 h'.le)
          have a2 : Real.exp (-e) * Real.exp e = 1 := by rw [← Real.exp_add]; simp
          have a4 : Real.exp (-e) ≤ 1e-7 := by
            norm_num at a3
            nlinarith [Real.exp_pos (-e)]
          have a5 : (1e7 : ℝ) ≤ Real.sinh e := by
            rw [Real.sinh_eq]
            norm_num at a3 a4 ⊢
            linarith
          rw [div_le_iff₀ s0]
          norm_num at a4 a5 ⊢
          nlinarith
        · rintro (hh | hh)
          · exact absurd hh hl
          · exact absurd h' (not_lt.2 hh.2.le)

end
end Jdftx.NPCM
