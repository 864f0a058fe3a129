import Verif.Model.Smear
import Mathlib.Tactic.Linarith
import Mathlib.Tactic.FieldSimp
import Mathlib.Tactic.LinearCombination

/-!
# Lemmas for C43 and C65: smearing functions
-/
namespace Jdftx.Smear
noncomputable section
open Filter Topology MeasureTheory

theorem gauss_deriv (x : ℝ) : HasDerivAt (fun x => ∫ t in (0 : ℝ)..x, Real.exp (-t ^ 2)) (Real.exp (-x ^ 2)) x := by
  have hc : Continuous fun t : ℝ => Real.exp (-t ^ 2) := by fun_prop
  exact intervalIntegral.integral_hasDerivAt_right (hc.intervalIntegrable _ _) (hc.stronglyMeasurableAtFilter _ _) hc.continuousAt

theorem erfc_deriv (x : ℝ) : HasDerivAt erfc (-(2 / Real.sqrt Real.pi * Real.exp (-x ^ 2))) x := by
  have := ((gauss_deriv x).const_mul (2 / Real.sqrt Real.pi)).const_sub 1
  exact this

theorem erfc_continuous : Continuous erfc := continuous_iff_continuousAt.2 fun x => (erfc_deriv x).continuousAt

theorem gauss_top : Tendsto (fun x => ∫ t in (0 : ℝ)..x, Real.exp (-t ^ 2)) atTop (𝓝 (Real.sqrt Real.pi / 2)) := by
  have h := integral_gaussian_Ioi 1
  rw [div_one] at h
  rw [← h]
  have hi : IntegrableOn (fun t : ℝ => Real.exp (-t ^ 2)) (Set.Ioi 0) := by
    have := (integrable_exp_neg_mul_sq (b := 1) one_pos).integrableOn (s := Set.Ioi 0)
    simpa using this
  have := intervalIntegral_tendsto_integral_Ioi 0 hi tendsto_id
  simpa using this

theorem gauss_neg (x : ℝ) : ∫ t in (0 : ℝ)..(-x), Real.exp (-t ^ 2) = -∫ t in (0 : ℝ)..x, Real.exp (-t ^ 2) := by
  have h := intervalIntegral.integral_comp_neg (fun t : ℝ => Real.exp (-t ^ 2)) (a := 0) (b := x)
  simp only [neg_zero, even_two, Even.neg_pow] at h
  rw [h, intervalIntegral.integral_symm]

theorem sqrtpi_ne : Real.sqrt Real.pi ≠ 0 := (Real.sqrt_pos.2 Real.pi_pos).ne'

theorem erfc_top : Tendsto erfc atTop (𝓝 0) := by
  have := (gauss_top.const_mul (2 / Real.sqrt Real.pi)).const_sub 1
  have e : (1 : ℝ) - 2 / Real.sqrt Real.pi * (Real.sqrt Real.pi / 2) = 0 := by
    have := sqrtpi_ne; field_simp; ring
  rw [e] at this
  exact this

theorem erfc_neg (x : ℝ) : erfc (-x) = 2 - erfc x := by
  unfold erfc; rw [gauss_neg]; ring

theorem erfc_bot : Tendsto erfc atBot (𝓝 2) := by
  have h := (erfc_top.comp tendsto_neg_atBot_atTop).const_sub 2
  rw [sub_zero] at h
  refine h.congr fun x => ?_
  simp only [Function.comp]
  rw [erfc_neg]; ring

/-- `x exp(-x²)` and `exp(-x²)` vanish at infinity. -/
theorem exp_sq_top : Tendsto (fun x : ℝ => Real.exp (-x * x)) atTop (𝓝 0) := by
  refine Real.tendsto_exp_atBot.comp ?_
  refine tendsto_atBot_mono' _ ?_ tendsto_neg_atTop_atBot
  filter_upwards [eventually_ge_atTop (1 : ℝ)] with x hx
  show -x * x ≤ -x
  nlinarith

theorem x_exp_sq_top : Tendsto (fun x : ℝ => x * Real.exp (-x * x)) atTop (𝓝 0) := by
  have h := Real.tendsto_pow_mul_exp_neg_atTop_nhds_zero 1
  refine squeeze_zero' ?_ ?_ h
  · filter_upwards [eventually_ge_atTop (0 : ℝ)] with x hx
    positivity
  · filter_upwards [eventually_ge_atTop (1 : ℝ)] with x hx
    rw [pow_one]
    apply mul_le_mul_of_nonneg_left _ (by linarith)
    apply Real.exp_le_exp.2
    nlinarith

theorem exp_sq_bot : Tendsto (fun x : ℝ => Real.exp (-x * x)) atBot (𝓝 0) := by
  have := exp_sq_top.comp tendsto_neg_atBot_atTop
  refine this.congr fun x => ?_
  simp only [Function.comp]; congr 1; ring

theorem x_exp_sq_bot : Tendsto (fun x : ℝ => x * Real.exp (-x * x)) atBot (𝓝 0) := by
  have := (x_exp_sq_top.comp tendsto_neg_atBot_atTop).neg
  rw [neg_zero] at this
  refine this.congr fun x => ?_
  simp only [Function.comp]
  have : -(-x) * (-x) = -x * x := by ring
  rw [this]; ring

theorem fermi_eq (x : ℝ) : 0.5 * (1 - Real.tanh x) = 1 / (1 + Real.exp (2 * x)) := by
  have h1 := Real.exp_pos x
  have h2 := Real.exp_pos (-x)
  have h3 : Real.exp (2 * x) = Real.exp x * Real.exp x := by rw [← Real.exp_add]; congr 1; ring
  have h4 : Real.exp x * Real.exp (-x) = 1 := by rw [← Real.exp_add]; simp
  rw [Real.tanh_eq_sinh_div_cosh, Real.sinh_eq, Real.cosh_eq, h3]
  have : Real.exp x + Real.exp (-x) ≠ 0 := by positivity
  have : 1 + Real.exp x * Real.exp x ≠ 0 := by positivity
  field_simp
  nlinarith

theorem occ_continuous (k : Kind) : Continuous (occ k) := by
  have he := erfc_continuous
  cases k <;> unfold occ
  · simp only [fermi_eq]
    refine Continuous.div continuous_const (by fun_prop) fun x => ?_
    have := Real.exp_pos (2 * x); positivity
  · fun_prop
  · fun_prop
  · fun_prop

theorem occ_top (k : Kind) : Tendsto (occ k) atTop (𝓝 0) := by
  cases k <;> unfold occ
  · simp only [fermi_eq]
    have : Tendsto (fun x : ℝ => 1 + Real.exp (2 * x)) atTop atTop := by
      refine tendsto_atTop_add_const_left _ _ (Real.tendsto_exp_atTop.comp ?_)
      exact Tendsto.const_mul_atTop (by norm_num) tendsto_id
    exact tendsto_const_nhds.div_atTop this
  · simpa using erfc_top.const_mul 0.5
  · simpa using (erfc_top.const_mul 0.5).sub (x_exp_sq_top.div_const (2 * Real.sqrt Real.pi))
  · have hs : Tendsto (fun x : ℝ => x + Real.sqrt 0.5) atTop atTop := tendsto_atTop_add_const_right _ _ tendsto_id
    have h2 := (exp_sq_top.comp hs).div_const (Real.sqrt (2 * Real.pi))
    have h := ((erfc_top.comp hs).const_mul 0.5).add h2
    simp only [mul_zero, zero_div, add_zero] at h
    refine h.congr fun x => ?_
    simp only [Function.comp]
    congr 3; ring

theorem occ_bot (k : Kind) : Tendsto (occ k) atBot (𝓝 1) := by
  cases k <;> unfold occ
  · simp only [fermi_eq]
    have h1 : Tendsto (fun x : ℝ => Real.exp (2 * x)) atBot (𝓝 0) :=
      Real.tendsto_exp_atBot.comp (Tendsto.const_mul_atBot (by norm_num) tendsto_id)
    have := (h1.const_add 1).inv₀ (by norm_num)
    simpa using this
  · have := erfc_bot.const_mul 0.5
    norm_num at this ⊢; exact this
  · have := (erfc_bot.const_mul 0.5).sub (x_exp_sq_bot.div_const (2 * Real.sqrt Real.pi))
    norm_num at this ⊢; exact this
  · have hs : Tendsto (fun x : ℝ => x + Real.sqrt 0.5) atBot atBot := tendsto_atBot_add_const_right _ _ tendsto_id
    have h2 := (exp_sq_bot.comp hs).div_const (Real.sqrt (2 * Real.pi))
    have h := ((erfc_bot.comp hs).const_mul 0.5).add h2
    have e : (0.5 : ℝ) * 2 + 0 / Real.sqrt (2 * Real.pi) = 1 := by norm_num
    rw [e] at h
    refine h.congr fun x => ?_
    simp only [Function.comp]
    congr 3; ring

/-! ### Search -/

theorem lower_spec (f : ℝ → Res ℝ) (bound hi lo0 : ℝ) : ∀ (n : Nat) (lo r : ℝ), lo < hi →
    (lo = lo0 ∨ ∃ x v, f x = .ok v ∧ v ≥ bound ∧ x < hi ∧ lo = x - (hi - x)) → lower f bound hi n lo = .ok r →
    r < hi ∧ (∃ v, f r = .ok v ∧ v < bound) ∧ (r = lo0 ∨ ∃ x v, f x = .ok v ∧ v ≥ bound ∧ x < hi ∧ r = x - (hi - x)) := by
  intro n
  induction n with
  | zero => intro lo r _ _ h; simp [lower] at h
  | succ n ih =>
    intro lo r hlt hor h
    unfold lower at h
    cases hv : f lo with
    | error e => rw [hv] at h; simp [Bind.bind, Except.bind] at h
    | ok v =>
      rw [hv] at h
      simp only [Bind.bind, Except.bind] at h
      by_cases hb : v ≥ bound
      · rw [if_pos hb] at h
        exact ih _ r (by linarith) (Or.inr ⟨lo, v, hv, hb, hlt, rfl⟩) h
      · rw [if_neg hb] at h
        have h := Except.ok.inj h
        subst h
        exact ⟨hlt, ⟨v, hv, not_le.1 hb⟩, hor⟩

theorem upper_spec (f : ℝ → Res ℝ) (bound lo hi0 : ℝ) : ∀ (n : Nat) (hi r : ℝ), lo < hi →
    (hi = hi0 ∨ ∃ x v, f x = .ok v ∧ v ≤ bound ∧ lo < x ∧ hi = x + (x - lo)) → upper f bound lo n hi = .ok r →
    lo < r ∧ (∃ v, f r = .ok v ∧ bound < v) ∧ (r = hi0 ∨ ∃ x v, f x = .ok v ∧ v ≤ bound ∧ lo < x ∧ r = x + (x - lo)) := by
  intro n
  induction n with
  | zero => intro lo r _ _ h; simp [upper] at h
  | succ n ih =>
    intro hi r hlt hor h
    unfold upper at h
    cases hv : f hi with
    | error e => rw [hv] at h; simp [Bind.bind, Except.bind] at h
    | ok v =>
      rw [hv] at h
      simp only [Bind.bind, Except.bind] at h
      by_cases hb : v ≤ bound
      · rw [if_pos hb] at h
        exact ih _ r (by linarith) (Or.inr ⟨hi, v, hv, hb, hlt, rfl⟩) h
      · rw [if_neg hb] at h
        have h := Except.ok.inj h
        subst h
        exact ⟨hlt, ⟨v, hv, not_le.1 hb⟩, hor⟩

theorem bisect_spec (f : ℝ → Res ℝ) (target tol c : ℝ) (hc : 0 < c) : ∀ (n : Nat) (lo hi : ℝ) (r : ℝ × ℝ), lo < hi →
    (∃ v, f lo = .ok v ∧ v < target + c) → (∃ v, f hi = .ok v ∧ target - c < v) → bisect f target tol n lo hi = .ok r →
    r.1 < r.2 ∧ r.2 - r.1 < tol ∧ lo ≤ r.1 ∧ r.2 ≤ hi ∧ (∃ v, f r.1 = .ok v ∧ v < target + c) ∧ (∃ v, f r.2 = .ok v ∧ target - c < v) := by
  intro n
  induction n with
  | zero => intro lo hi r _ _ _ h; simp [bisect] at h
  | succ n ih =>
    intro lo hi r hlt h1 h2 h
    unfold bisect at h
    by_cases hw : hi - lo ≥ tol
    · rw [if_pos hw] at h
      simp only at h
      cases hv : f (0.5 * (lo + hi)) with
      | error e => rw [hv] at h; simp [Bind.bind, Except.bind] at h
      | ok v =>
        rw [hv] at h
        simp only [Bind.bind, Except.bind] at h
        by_cases hb : v > target
        · rw [if_pos hb] at h
          have := ih _ _ r (by linarith) h1 ⟨v, hv, by linarith⟩ h
          refine ⟨this.1, this.2.1, this.2.2.1, by linarith [this.2.2.2.1], this.2.2.2.2⟩
        · rw [if_neg hb] at h
          have := ih _ _ r (by linarith) ⟨v, hv, by linarith⟩ h2 h
          refine ⟨this.1, this.2.1, by linarith [this.2.2.1], this.2.2.2⟩
    · rw [if_neg hw] at h
      have h := Except.ok.inj h
      subst h
      exact ⟨hlt, not_le.1 hw, le_rfl, le_rfl, h1, h2⟩

theorem countTol_pos (t : ℝ) : 0 < countTol t := lt_of_lt_of_le (by norm_num [absTol]) (le_max_left _ _)

theorem lower_term (g : ℝ → ℝ) (bound hi B : ℝ) (hB : ∀ x ≤ B, g x < bound) : ∀ lo, lo < hi →
    ∃ n0, ∀ n ≥ n0, ∃ r, lower (fun x => .ok (g x)) bound hi n lo = .ok r := by
  intro lo hlt
  have key : ∀ (m n : Nat) (lo : ℝ), lo < hi → hi - 2 ^ m * (hi - lo) ≤ B → m < n → ∃ r, lower (fun x => .ok (g x)) bound hi n lo = .ok r := by
    intro m
    induction m with
    | zero =>
      intro n lo hlt h hn
      obtain ⟨n, rfl⟩ := Nat.exists_eq_succ_of_ne_zero (by omega : n ≠ 0)
      refine ⟨lo, ?_⟩
      unfold lower
      simp only [Bind.bind, Except.bind]
      rw [if_neg (not_le.2 (hB lo (by linarith)))]
    | succ m ih =>
      intro n lo hlt h hn
      obtain ⟨n, rfl⟩ := Nat.exists_eq_succ_of_ne_zero (by omega : n ≠ 0)
      unfold lower
      simp only [Bind.bind, Except.bind]
      by_cases hb : g lo ≥ bound
      · rw [if_pos hb]
        refine ih n _ (by linarith) ?_ (by omega)
        have : hi - 2 ^ m * (hi - (lo - (hi - lo))) = hi - 2 ^ (m + 1) * (hi - lo) := by ring
        rw [this]; exact h
      · rw [if_neg hb]; exact ⟨lo, rfl⟩
  obtain ⟨m, hm⟩ := pow_unbounded_of_one_lt ((hi - B) / (hi - lo)) (by norm_num : (1 : ℝ) < 2)
  refine ⟨m + 1, fun n hn => key m n lo hlt ?_ (by omega)⟩
  rw [div_lt_iff₀ (by linarith)] at hm
  linarith

theorem upper_term (g : ℝ → ℝ) (bound lo B : ℝ) (hB : ∀ x, B ≤ x → bound < g x) : ∀ hi, lo < hi →
    ∃ n0, ∀ n ≥ n0, ∃ r, upper (fun x => .ok (g x)) bound lo n hi = .ok r := by
  intro hi hlt
  have key : ∀ (m n : Nat) (hi : ℝ), lo < hi → B ≤ lo + 2 ^ m * (hi - lo) → m < n → ∃ r, upper (fun x => .ok (g x)) bound lo n hi = .ok r := by
    intro m
    induction m with
    | zero =>
      intro n hi hlt h hn
      obtain ⟨n, rfl⟩ := Nat.exists_eq_succ_of_ne_zero (by omega : n ≠ 0)
      refine ⟨hi, ?_⟩
      unfold upper
      simp only [Bind.bind, Except.bind]
      rw [if_neg (not_le.2 (hB hi (by linarith)))]
    | succ m ih =>
      intro n hi hlt h hn
      obtain ⟨n, rfl⟩ := Nat.exists_eq_succ_of_ne_zero (by omega : n ≠ 0)
      unfold upper
      simp only [Bind.bind, Except.bind]
      by_cases hb : g hi ≤ bound
      · rw [if_pos hb]
        refine ih n _ (by linarith) ?_ (by omega)
        have : lo + 2 ^ m * (hi + (hi - lo) - lo) = lo + 2 ^ (m + 1) * (hi - lo) := by ring
        rw [this]; exact h
      · rw [if_neg hb]; exact ⟨hi, rfl⟩
  obtain ⟨m, hm⟩ := pow_unbounded_of_one_lt ((B - lo) / (hi - lo)) (by norm_num : (1 : ℝ) < 2)
  refine ⟨m + 1, fun n hn => key m n hi hlt ?_ (by omega)⟩
  rw [div_lt_iff₀ (by linarith)] at hm
  linarith

theorem bisect_term (g : ℝ → ℝ) (target tol : ℝ) (ht : 0 < tol) (lo hi : ℝ) :
    ∃ n0, ∀ n ≥ n0, ∃ r, bisect (fun x => .ok (g x)) target tol n lo hi = .ok r := by
  have key : ∀ (m n : Nat) (lo hi : ℝ), hi - lo < 2 ^ m * tol → m < n → ∃ r, bisect (fun x => .ok (g x)) target tol n lo hi = .ok r := by
    intro m
    induction m with
    | zero =>
      intro n lo hi h hn
      obtain ⟨n, rfl⟩ := Nat.exists_eq_succ_of_ne_zero (by omega : n ≠ 0)
      refine ⟨(lo, hi), ?_⟩
      unfold bisect
      rw [if_neg (not_le.2 (by simpa using h))]
    | succ m ih =>
      intro n lo hi h hn
      obtain ⟨n, rfl⟩ := Nat.exists_eq_succ_of_ne_zero (by omega : n ≠ 0)
      unfold bisect
      simp only [Bind.bind, Except.bind]
      by_cases hw : hi - lo ≥ tol
      · rw [if_pos hw]
        have h2 : (2 : ℝ) ^ (m + 1) * tol = 2 * (2 ^ m * tol) := by ring
        rw [h2] at h
        by_cases hb : g (0.5 * (lo + hi)) > target
        · rw [if_pos hb]
          exact ih n _ _ (by linarith) (by omega)
        · rw [if_neg hb]
          exact ih n _ _ (by linarith) (by omega)
      · rw [if_neg hw]; exact ⟨_, rfl⟩
  obtain ⟨m, hm⟩ := pow_unbounded_of_one_lt ((hi - lo) / tol) (by norm_num : (1 : ℝ) < 2)
  refine ⟨m + 1, fun n hn => key m n lo hi ?_ (by omega)⟩
  rwa [div_lt_iff₀ ht] at hm

/-- More fuel does not change a result. -/
theorem lower_mono (f : ℝ → Res ℝ) (bound hi : ℝ) : ∀ (n m : Nat) (lo r : ℝ), n ≤ m → lower f bound hi n lo = .ok r → lower f bound hi m lo = .ok r := by
  intro n
  induction n with
  | zero => intro m lo r _ h; simp [lower] at h
  | succ n ih =>
    intro m lo r hnm h
    obtain ⟨m, rfl⟩ := Nat.exists_eq_succ_of_ne_zero (by omega : m ≠ 0)
    unfold lower at h ⊢
    cases hv : f lo with
    | error e => rw [hv] at h; simp [Bind.bind, Except.bind] at h
    | ok v =>
      rw [hv] at h
      simp only [Bind.bind, Except.bind] at h ⊢
      by_cases hb : v ≥ bound
      · rw [if_pos hb] at h ⊢; exact ih m _ r (by omega) h
      · rw [if_neg hb] at h ⊢; exact h

theorem upper_mono (f : ℝ → Res ℝ) (bound lo : ℝ) : ∀ (n m : Nat) (hi r : ℝ), n ≤ m → upper f bound lo n hi = .ok r → upper f bound lo m hi = .ok r := by
  intro n
  induction n with
  | zero => intro m lo r _ h; simp [upper] at h
  | succ n ih =>
    intro m hi r hnm h
    obtain ⟨m, rfl⟩ := Nat.exists_eq_succ_of_ne_zero (by omega : m ≠ 0)
    unfold upper at h ⊢
    cases hv : f hi with
    | error e => rw [hv] at h; simp [Bind.bind, Except.bind] at h
    | ok v =>
      rw [hv] at h
      simp only [Bind.bind, Except.bind] at h ⊢
      by_cases hb : v ≤ bound
      · rw [if_pos hb] at h ⊢; exact ih m _ r (by omega) h
      · rw [if_neg hb] at h ⊢; exact h

theorem search_term (g : ℝ → ℝ) (target σ lo hi B B' : ℝ) (hσ : 0 < σ) (hlt : lo < hi)
    (hB : ∀ x ≤ B, g x < target + countTol target) (hB' : ∀ x, B' ≤ x → target - countTol target < g x) :
    ∃ n0, ∀ n ≥ n0, ∃ r, search (fun x => .ok (g x)) target σ lo hi n = .ok r := by
  obtain ⟨n1, h1⟩ := lower_term g _ hi B hB lo hlt
  obtain ⟨lo', hlo'⟩ := h1 n1 le_rfl
  have hs := lower_spec _ _ _ lo _ _ _ hlt (Or.inl rfl) hlo'
  obtain ⟨n2, h2⟩ := upper_term g _ lo' B' hB' hi hs.1
  obtain ⟨hi', hhi'⟩ := h2 n2 le_rfl
  have htol : 0 < max (absTol * σ) (relTol * max |lo'| |hi'|) :=
    lt_of_lt_of_le (by unfold absTol; positivity) (le_max_left _ _)
  obtain ⟨n3, h3⟩ := bisect_term g target _ htol lo' hi'
  refine ⟨max n1 (max n2 n3), fun n hn => ?_⟩
  obtain ⟨r, hr⟩ := h3 n (by omega)
  refine ⟨r, ?_⟩
  unfold search
  rw [lower_mono _ _ _ n1 n _ _ (by omega) hlo']
  simp only [Bind.bind, Except.bind]
  rw [upper_mono _ _ _ n2 n _ _ (by omega) hhi']
  exact hr

end
end Jdftx.Smear
