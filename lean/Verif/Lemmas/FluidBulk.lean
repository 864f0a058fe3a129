import Verif.Spec.FluidBulk
import Verif.Lemmas.FluidMix
import Verif.Props.FluidEx

/-!
# Lemmas for C96
-/
namespace Jdftx.Fluid
open Box ExCorr Cavity Filter Topology
open scoped ComplexConjugate
noncomputable section

/-! ### Search -/

section
variable (P : ℝ → Option ℝ) (p : ℝ)

theorem down_spec (k : Nat) (N lo hi : ℝ) (hN : 0 < N) (hg : gtO (P N) p) (h : bracketDown P p k N = .ok (lo, hi)) :
    0 < lo ∧ lo < hi ∧ hi ≤ N ∧ ¬ gtO (P lo) p ∧ ¬ ltO (P hi) p := by
  induction k generalizing N with
  | zero => cases h
  | succ k ih =>
    unfold bracketDown at h
    by_cases hc : gtO (P (0.99 * N)) p
    · simp only [if_pos hc] at h
      obtain ⟨a, b, c, d⟩ := ih (0.99 * N) (by linarith) hc h
      exact ⟨a, b, by linarith, d⟩
    · simp only [if_neg hc] at h
      cases h
      refine ⟨by linarith, by linarith, le_rfl, hc, ?_⟩
      rintro ⟨v, hv, hl⟩
      obtain ⟨v', hv', hl'⟩ := hg
      rw [hv] at hv'; cases hv'; linarith

theorem up_spec (k : Nat) (N lo hi : ℝ) (hN : 0 < N) (hg : ¬ gtO (P N) p) (h : bracketUp P p k N = .ok (lo, hi)) :
    0 < lo ∧ lo < hi ∧ N ≤ lo ∧ ¬ gtO (P lo) p ∧ ¬ ltO (P hi) p ∧ (lo = N ∨ ltO (P lo) p) := by
  induction k generalizing N with
  | zero => cases h
  | succ k ih =>
    unfold bracketUp at h
    have hd : N < N / 0.99 := by rw [lt_div_iff₀ (by norm_num)]; linarith
    by_cases hc : ltO (P (N / 0.99)) p
    · simp only [if_pos hc] at h
      have hc' : ¬ gtO (P (N / 0.99)) p := by
        rintro ⟨v, hv, hl⟩
        obtain ⟨v', hv', hl'⟩ := hc
        rw [hv] at hv'; cases hv'; linarith
      obtain ⟨a, b, c, d, e, f⟩ := ih (N / 0.99) (by positivity) hc' h
      refine ⟨a, b, by linarith, d, e, Or.inr ?_⟩
      rcases f with f | f
      · rwa [f]
      · exact f
    · simp only [if_neg hc] at h
      cases h
      exact ⟨hN, hd, le_rfl, hg, hc, Or.inl rfl⟩

theorem bisect_spec (k : Nat) (lo hi N : ℝ) (hl : 0 < lo) (hlt : lo < hi) (h1 : ¬ gtO (P lo) p) (h2 : ¬ ltO (P hi) p) (h : bisect P p k lo hi = .ok N) :
    ∃ a b, lo ≤ a ∧ a < b ∧ b ≤ hi ∧ (N = a ∨ N = b) ∧ b - a ≤ 1e-12 * b ∧ ¬ gtO (P a) p ∧ ¬ ltO (P b) p ∧ (a = lo ∨ ltO (P a) p) := by
  induction k generalizing lo hi with
  | zero => cases h
  | succ k ih =>
    unfold bisect at h
    have m1 : lo < 0.5 * (lo + hi) := by linarith
    have m2 : 0.5 * (lo + hi) < hi := by linarith
    generalize 0.5 * (lo + hi) = M at h m1 m2
    by_cases hc : ltO (P M) p
    · have hc' : ¬ gtO (P M) p := by
        rintro ⟨v, hv, hl⟩
        obtain ⟨v', hv', hl'⟩ := hc
        rw [hv] at hv'; cases hv'; linarith
      simp only [if_pos hc] at h
      by_cases hw : hi - M > 1e-12 * hi
      · rw [if_pos hw] at h
        obtain ⟨a, b, r1, r2, r3, r4, r5, r6, r7, r8⟩ := ih M hi (by linarith) m2 hc' h2 h
        refine ⟨a, b, by linarith, r2, r3, r4, r5, r6, r7, Or.inr ?_⟩
        rcases r8 with e | e
        · rwa [e]
        · exact e
      · rw [if_neg hw] at h
        cases h
        exact ⟨N, hi, m1.le, m2, le_rfl, Or.inl rfl, not_lt.1 hw, hc', h2, Or.inr hc⟩
    · simp only [if_neg hc] at h
      by_cases hw : M - lo > 1e-12 * M
      · rw [if_pos hw] at h
        obtain ⟨a, b, r1, r2, r3, r4, r5, r6, r7, r8⟩ := ih lo M hl m1 h1 hc h
        exact ⟨a, b, r1, r2, by linarith, r4, r5, r6, r7, r8⟩
      · rw [if_neg hw] at h
        cases h
        exact ⟨lo, N, le_rfl, m1, m2.le, Or.inr rfl, not_lt.1 hw, h1, hc, Or.inl rfl⟩

theorem start_pos (Nguess n3 : ℝ) (h : 0 < Nguess) : 0 < startDensity Nguess n3 := by
  unfold startDensity
  split
  · rename_i h3
    have : 0 < n3 := by linarith
    positivity
  · exact h

/-- The interval in which the search ends. -/
theorem find_spec (fuel : Nat) (Nguess n3 N : ℝ) (h0 : 0 < Nguess) (h : findDensity P p fuel Nguess n3 = .ok N) :
    ∃ a b, 0 < a ∧ a < b ∧ (N = a ∨ N = b) ∧ b - a ≤ 1e-12 * b ∧ ¬ gtO (P a) p ∧ ¬ ltO (P b) p ∧ (ltO (P a) p ∨ (a < startDensity Nguess n3 ∨ a = startDensity Nguess n3)) ∧
      (¬ gtO (P (startDensity Nguess n3)) p → startDensity Nguess n3 ≤ a) := by
  have hs := start_pos Nguess n3 h0
  unfold findDensity at h
  by_cases hg : gtO (P (startDensity Nguess n3)) p
  · simp only [if_pos hg] at h
    obtain ⟨x, hx⟩ : ∃ x, bracketDown P p fuel (startDensity Nguess n3) = x := ⟨_, rfl⟩
    rw [hx] at h
    cases x with
    | error e => cases h
    | ok v =>
      obtain ⟨lo, hi⟩ := v
      obtain ⟨a1, a2, a3, a4, a5⟩ := down_spec P p _ _ _ _ hs hg hx
      obtain ⟨a, b, r1, r2, r3, r4, r5, r6, r7, r8⟩ := bisect_spec P p _ _ _ _ a1 a2 a4 a5 h
      exact ⟨a, b, by linarith, r2, r4, r5, r6, r7, Or.inr (Or.inl (by linarith)), fun h => absurd hg h⟩
  · simp only [if_neg hg] at h
    obtain ⟨x, hx⟩ : ∃ x, bracketUp P p fuel (startDensity Nguess n3) = x := ⟨_, rfl⟩
    rw [hx] at h
    cases x with
    | error e => cases h
    | ok v =>
      obtain ⟨lo, hi⟩ := v
      obtain ⟨a1, a2, a3, a4, a5, a6⟩ := up_spec P p _ _ _ _ hs hg hx
      obtain ⟨a, b, r1, r2, r3, r4, r5, r6, r7, r8⟩ := bisect_spec P p _ _ _ _ a1 a2 a4 a5 h
      refine ⟨a, b, by linarith, r2, r4, r5, r6, r7, ?_, fun _ => by linarith⟩
      rcases r8 with e | e
      · rcases a6 with e' | e'
        · exact Or.inr (Or.inr (e.trans e'))
        · exact Or.inl (e ▸ e')
      · exact Or.inl e

theorem bisect_terminates (lo hi : ℝ) (hl : 0 < lo) (hlt : lo < hi) : ∃ K, ∀ k ≥ K, ∃ N, bisect P p k lo hi = .ok N := by
  have main : ∀ K : Nat, ∀ lo' hi', lo ≤ lo' → lo' < hi' → hi' - lo' ≤ 2 ^ K * (1e-12 * lo) → ∀ k > K, ∃ N, bisect P p k lo' hi' = .ok N := by
    intro K
    induction K with
    | zero =>
      intro lo' hi' h1 h2 h3 k hk
      obtain ⟨k, rfl⟩ : ∃ k', k = k' + 1 := ⟨k - 1, by omega⟩
      unfold bisect
      refine ⟨0.5 * (lo' + hi'), ?_⟩
      simp only []
      split_ifs with hc hw hw
      · exfalso; nlinarith
      · rfl
      · exfalso; nlinarith
      · rfl
    | succ K ih =>
      intro lo' hi' h1 h2 h3 k hk
      obtain ⟨k, rfl⟩ : ∃ k', k = k' + 1 := ⟨k - 1, by omega⟩
      unfold bisect
      have h4 : (2 : ℝ) ^ (K + 1) = 2 * 2 ^ K := by ring
      rw [h4] at h3
      by_cases hc : ltO (P (0.5 * (lo' + hi'))) p
      · simp only [if_pos hc]
        split_ifs
        · exact ih _ _ (by linarith) (by linarith) (by linarith) k (by omega)
        · exact ⟨_, rfl⟩
      · simp only [if_neg hc]
        split_ifs
        · exact ih _ _ (by linarith) (by linarith) (by linarith) k (by omega)
        · exact ⟨_, rfl⟩
  obtain ⟨K, hK⟩ := pow_unbounded_of_one_lt ((hi - lo) / (1e-12 * lo)) (by norm_num : (1 : ℝ) < 2)
  refine ⟨K + 1, fun k hk => main K lo hi le_rfl hlt ?_ k hk⟩
  rw [div_lt_iff₀ (by positivity)] at hK
  exact hK.le

theorem down_terminates (N : ℝ) (j : Nat) (hj : ¬ gtO (P (0.99 ^ (j + 1) * N)) p) (k : Nat) (hk : j < k) : ∃ v, bracketDown P p k N = .ok v := by
  induction j generalizing N k with
  | zero =>
    obtain ⟨k, rfl⟩ : ∃ k', k = k' + 1 := ⟨k - 1, by omega⟩
    unfold bracketDown
    rw [zero_add, pow_one] at hj
    exact ⟨_, if_neg hj⟩
  | succ j ih =>
    obtain ⟨k, rfl⟩ : ∃ k', k = k' + 1 := ⟨k - 1, by omega⟩
    unfold bracketDown
    by_cases hc : gtO (P (0.99 * N)) p
    · simp only [if_pos hc]
      exact ih (0.99 * N) (by rwa [← mul_assoc, ← pow_succ]) k (by omega)
    · exact ⟨_, if_neg hc⟩

theorem up_terminates (N : ℝ) (j : Nat) (hj : ¬ ltO (P (N / 0.99 ^ (j + 1))) p) (k : Nat) (hk : j < k) : ∃ v, bracketUp P p k N = .ok v := by
  induction j generalizing N k with
  | zero =>
    obtain ⟨k, rfl⟩ : ∃ k', k = k' + 1 := ⟨k - 1, by omega⟩
    unfold bracketUp
    rw [zero_add, pow_one] at hj
    exact ⟨_, if_neg hj⟩
  | succ j ih =>
    obtain ⟨k, rfl⟩ : ∃ k', k = k' + 1 := ⟨k - 1, by omega⟩
    unfold bracketUp
    by_cases hc : ltO (P (N / 0.99)) p
    · simp only [if_pos hc]
      exact ih (N / 0.99) (by rwa [div_div, ← pow_succ']) k (by omega)
    · exact ⟨_, if_neg hc⟩

theorem find_terminates (Nguess n3 : ℝ) (h0 : 0 < Nguess) (hlo : gtO (P (startDensity Nguess n3)) p → ∃ ε > 0, ∀ N, 0 < N → N < ε → ¬ gtO (P N) p) (hhi : ∃ B, ∀ N ≥ B, ¬ ltO (P N) p) :
    ∃ K, ∀ k ≥ K, ∃ N, findDensity P p k Nguess n3 = .ok N := by
  have hs := start_pos Nguess n3 h0
  -- the bracket
  have hb : ∃ K lo hi, 0 < lo ∧ lo < hi ∧ ∀ k ≥ K, (open Classical in if gtO (P (startDensity Nguess n3)) p then bracketDown P p k (startDensity Nguess n3) else bracketUp P p k (startDensity Nguess n3)) = Except.ok (lo, hi) := by
    by_cases hg : gtO (P (startDensity Nguess n3)) p
    · simp only [if_pos hg]
      obtain ⟨ε, he, hε⟩ := hlo hg
      obtain ⟨j, hj⟩ := exists_pow_lt_of_lt_one (div_pos he hs) (by norm_num : (0.99 : ℝ) < 1)
      rw [lt_div_iff₀ hs] at hj
      have hj' : ¬ gtO (P (0.99 ^ (j + 1) * startDensity Nguess n3)) p := hε _ (by positivity) (by
        rw [pow_succ]; nlinarith [pow_pos (by norm_num : (0 : ℝ) < 0.99) j])
      obtain ⟨⟨lo, hi⟩, h1⟩ := down_terminates P p _ j hj' (j + 1) (by omega)
      obtain ⟨a1, a2, -⟩ := down_spec P p _ _ _ _ hs hg h1
      refine ⟨j + 1, lo, hi, a1, a2, ?_⟩
      have mono : ∀ k N v, bracketDown P p k N = .ok v → ∀ k' ≥ k, bracketDown P p k' N = .ok v := by
        intro k
        induction k with
        | zero => intro N v h; cases h
        | succ k ih =>
          intro N v h k' hk'
          obtain ⟨k', rfl⟩ : ∃ q, k' = q + 1 := ⟨k' - 1, by omega⟩
          unfold bracketDown at h ⊢
          by_cases hc : gtO (P (0.99 * N)) p
          · simp only [if_pos hc] at h ⊢; exact ih _ _ h _ (by omega)
          · simp only [if_neg hc] at h ⊢; exact h
      exact fun k hk => mono _ _ _ h1 k hk
    · simp only [if_neg hg]
      obtain ⟨B, hB⟩ := hhi
      obtain ⟨j, hj⟩ := pow_unbounded_of_one_lt (B / startDensity Nguess n3) (by norm_num : (1 : ℝ) < 1 / 0.99)
      rw [div_lt_iff₀ hs] at hj
      have hj' : ¬ ltO (P (startDensity Nguess n3 / 0.99 ^ (j + 1))) p := hB _ (by
        have e : startDensity Nguess n3 / 0.99 ^ (j + 1) = (1 / 0.99) ^ j * startDensity Nguess n3 / 0.99 := by
          rw [one_div, inv_pow, pow_succ]; field_simp
        rw [e, ge_iff_le, le_div_iff₀ (by norm_num)]
        have : 0 < (1 / 0.99 : ℝ) ^ j * startDensity Nguess n3 := by positivity
        rcases le_or_gt B 0 with h | h
        · nlinarith
        · nlinarith)
      obtain ⟨⟨lo, hi⟩, h1⟩ := up_terminates P p _ j hj' (j + 1) (by omega)
      obtain ⟨a1, a2, -⟩ := up_spec P p _ _ _ _ hs hg h1
      refine ⟨j + 1, lo, hi, a1, a2, ?_⟩
      have mono : ∀ k N v, bracketUp P p k N = .ok v → ∀ k' ≥ k, bracketUp P p k' N = .ok v := by
        intro k
        induction k with
        | zero => intro N v h; cases h
        | succ k ih =>
          intro N v h k' hk'
          obtain ⟨k', rfl⟩ : ∃ q, k' = q + 1 := ⟨k' - 1, by omega⟩
          unfold bracketUp at h ⊢
          by_cases hc : ltO (P (N / 0.99)) p
          · simp only [if_pos hc] at h ⊢; exact ih _ _ h _ (by omega)
          · simp only [if_neg hc] at h ⊢; exact h
      exact fun k hk => mono _ _ _ h1 k hk
  obtain ⟨K1, lo, hi, h1, h2, h3⟩ := hb
  obtain ⟨K2, h4⟩ := bisect_terminates P p lo hi h1 h2
  refine ⟨max K1 K2, fun k hk => ?_⟩
  obtain ⟨N, hN⟩ := h4 k (le_trans (le_max_right _ _) hk)
  refine ⟨N, ?_⟩
  unfold findDensity
  simp only []
  rw [h3 k (le_trans (le_max_left _ _) hk)]
  exact hN

/-- A density at the given pressure, in the interval in which the search ends. -/
theorem curve_root (f : ℝ → ℝ) (A : ℝ) (L : WithTop ℝ) (hc : Curve P f A L) (a b : ℝ) (ha : A < a) (hab : a < b) (haL : (a : WithTop ℝ) < L) (h1 : ¬ gtO (P a) p) (h2 : ¬ ltO (P b) p) :
    ∃ x, a ≤ x ∧ x ≤ b ∧ (x : WithTop ℝ) < L ∧ f x = p := by
  have hfa : f a ≤ p := by
    by_contra hlt
    exact h1 ⟨f a, hc.val a ha haL, not_le.1 hlt⟩
  -- a point up to which the function is continuous, with a value not below `p`
  obtain ⟨b', hab', hb', hb'L, hfb⟩ : ∃ b', a ≤ b' ∧ b' ≤ b ∧ (b' : WithTop ℝ) < L ∧ p ≤ f b' := by
    by_cases hbL : (b : WithTop ℝ) < L
    · refine ⟨b, hab.le, le_rfl, hbL, ?_⟩
      by_contra hlt
      exact h2 ⟨f b, hc.val b (ha.trans hab) hbL, not_le.1 hlt⟩
    · push Not at hbL
      obtain ⟨l, rfl⟩ : ∃ l : ℝ, L = (l : WithTop ℝ) := by
        cases L with
        | top => exact absurd (top_le_iff.1 hbL) (WithTop.coe_ne_top)
        | coe l => exact ⟨l, rfl⟩
      have hl : l ≤ b := by exact_mod_cast hbL
      have hal : a < l := by exact_mod_cast haL
      have e1 := (hc.pole l rfl).eventually (eventually_ge_atTop p)
      have e2 : ∀ᶠ y in 𝓝[<] l, a < y := by
        filter_upwards [Ioo_mem_nhdsLT hal] with y hy using hy.1
      obtain ⟨y, hy1, hy2, hy3⟩ := (e1.and (e2.and self_mem_nhdsWithin)).exists
      exact ⟨y, hy2.le, (show y < l from hy3).le.trans hl, by exact_mod_cast (show y < l from hy3), hy1⟩
  have hcont : ContinuousOn f (Set.Icc a b') := fun x hx => (hc.cont x (lt_of_lt_of_le ha hx.1) (lt_of_le_of_lt (by exact_mod_cast hx.2) hb'L)).continuousWithinAt
  obtain ⟨x, hx, hfx⟩ := intermediate_value_Icc hab' hcont ⟨hfa, hfb⟩
  exact ⟨x, hx.1, hx.2.trans hb', lt_of_le_of_lt (by exact_mod_cast hx.2) hb'L, hfx⟩

end

/-! ### Uniform fields -/

section
variable (g : Grid)

theorem Idag_uniform (hS : g.S.Pos) (a : ℝ) : Uniform g (Idag g.S fun _ => a) (nr g.S * a) := by
  refine ⟨Idag_const g.S hS a, fun i h0 hi => ?_⟩
  have h := Idag_wave g.S hS ⟨0, 0, 0⟩ ((a / 2 : ℝ) : ℂ) (fun _ => a) (fun j _ => by
    simp only [ph, Int.cast_zero, mul_zero, zero_mul, zero_div, Complex.exp_zero, mul_one, map_one, Complex.conj_ofReal]
    push_cast; ring) i
  have hn : ¬ ((g.S.s0 : Int) ∣ 0 - (hStart g.S i).x ∧ (g.S.s1 : Int) ∣ 0 - (hStart g.S i).y ∧ (g.S.s2 : Int) ∣ 0 - (hStart g.S i).z) := by
    rintro ⟨d0, d1, d2⟩
    obtain ⟨c0, c1, c2⟩ := hStart_centred g.S hS i hi
    have e0 := centred_dvd c0 (by simpa using hS.1) d0
    have e1 := centred_dvd c1 (by simpa using hS.2.1) d1
    have e2 := centred_dvd c2 (by simpa using hS.2.2) d2
    have e : hStart g.S i = hStart g.S 0 := by
      rw [hStart_zero g.S hS]
      cases hh : hStart g.S i with
      | mk x y z => rw [hh] at e0 e1 e2; simp only at e0 e1 e2; rw [e0, e1, e2]
    have := congrArg (halfGindex g.S) e
    rw [hStart_index g.S hS i hi, hStart_index g.S hS 0 (nG_pos _ hS)] at this
    have h0' : i = 0 := by exact_mod_cast this
    omega
  rw [h, if_neg hn, if_neg (by simpa using hn)]
  simp

theorem Idag_field_uniform (hS : g.S.Pos) (a : ℝ) (f : Field) (h : ∀ j < nr g.S, f j = a) : Uniform g (Idag g.S f) (nr g.S * a) := by
  have e : Idag g.S f = Idag g.S fun _ => a := by
    funext i
    exact Finset.sum_congr rfl fun j hj => by rw [h j (Finset.mem_range.1 hj)]
  rw [e]
  exact Idag_uniform g hS a

theorem fftJ_uniform (hS : g.S.Pos) (a : ℝ) (f : Field) (h : ∀ j < nr g.S, f j = a) : Uniform g (fftJ g.S f) a := by
  have hn : (nr g.S : ℝ) ≠ 0 := by exact_mod_cast (nr_pos g.S hS).ne'
  have := uniform_smul g (Idag_field_uniform g hS a f h) (1 / (nr g.S : ℝ))
  rw [show 1 / (nr g.S : ℝ) * (nr g.S * a) = a by field_simp] at this
  exact this

theorem uniform_add {X Y : Arr} {a b : ℝ} (hX : Uniform g X a) (hY : Uniform g Y b) : Uniform g (fun i => X i + Y i) (a + b) :=
  ⟨by simp only [hX.1, hY.1]; push_cast; rfl, fun i h0 hi => by simp only [hX.2 i h0 hi, hY.2 i h0 hi]; simp⟩

theorem uniform_zero : Uniform g (fun _ => 0) 0 := ⟨by simp, fun _ _ _ => rfl⟩

theorem uniform_listSum {α : Type} (l : List α) (X : α → Arr) (a : α → ℝ) (h : ∀ t ∈ l, Uniform g (X t) (a t)) : Uniform g (fun i => (l.map fun t => X t i).sum) (l.map a).sum := by
  induction l with
  | nil => exact uniform_zero g
  | cons t l ih =>
    simp only [List.map_cons, List.sum_cons]
    exact uniform_add g (h t (by simp)) (ih fun t ht => h t (by simp [ht]))

theorem uniform_of_zero {X : Arr} (hS : g.S.Pos) (h : ∀ i : Nat, i < nG g.S → X i = 0) : Uniform g X 0 :=
  ⟨by simpa using h 0 (nG_pos _ hS), fun i _ hi => h i hi⟩

theorem divergence_zero (hS : g.S.Pos) (V : Fin 3 → Arr) (h : ∀ k, ∀ i : Nat, i < nG g.S → V k i = 0) : Uniform g (divergence g.S g.G V) 0 := by
  refine uniform_of_zero g hS fun i hi => ?_
  rw [divergence_at g.S hS g.G V i hi]
  refine Finset.sum_eq_zero fun k _ => ?_
  simp only [mult, h k i hi, zero_mul]

theorem Idag_zero (i : Int) : Idag g.S (fun _ => (0 : ℝ)) i = 0 := by simp [Idag]

/-! ### Hard spheres -/

section
variable {C : Nat} (m : Mix C)

theorem fmtGrad_flat (x : Fmt) (h1 : x.n1v = fun _ => 0) (h2 : x.n2v = fun _ => 0) (h3 : x.n2m = ⟨0, 0, 0, 0, 0⟩) :
    let y := ((phiFmt x).map Prod.snd).getD Fmt.zero
    y.n1v = (fun _ => 0) ∧ y.n2v = (fun _ => 0) ∧ y.n2m = ⟨0, 0, 0, 0, 0⟩ := by
  unfold phiFmt
  simp only []
  split_ifs <;> simp only [Option.map_some, Option.map_none, Option.getD_some, Option.getD_none, Fmt.zero, and_self]
  simp only [phiGrad, h1, h2, h3]
  refine ⟨by simp, ?_, by simp [tadd, mulVTmv_m, traceCubed_m]⟩
  funext k
  fin_cases k <;> simp [mulVTmv_v]

theorem bndGrad_flat (Rhm scale : ℝ) (x : Bnd) (h : x.n2v = fun _ => 0) : (((phiBond Rhm scale x).map Prod.snd).getD ⟨0, 0, 0, fun _ => 0⟩).n2v = fun _ => 0 := by
  unfold phiBond
  split_ifs <;> simp only [Option.map_some, Option.map_none, Option.getD_some, Option.getD_none]
  simp [bondGrad, h]

theorem fmtGradAt_uniform (hS : g.S.Pos) {N : Dens m} {n : (c : Fin C) → Fin (m.ns c) → ℝ} (h : UniformD g m N n) (j : Nat) : fmtGradAt g (weighted g m N) j = fmtGradU m n := by
  unfold fmtGradAt fmtGradU; rw [fmtAt_uniform g m hS h j]

theorem bndGradAt_uniform (hS : g.S.Pos) {N : Dens m} {n : (c : Fin C) → Fin (m.ns c) → ℝ} (h : UniformD g m N n) (Rhm scale : ℝ) (c : Fin C) (j : Nat) :
    bndGradAt g Rhm scale (n0mol g m N c) (weighted g m N).n2 (weighted g m N).n3 j = bndGradU m Rhm scale n c := by
  unfold bndGradAt bndGradU; rw [bndAt_uniform g m hS h c j]

theorem hardSphereGrad_uniform (hS : g.S.Pos) {N : Dens m} {n : (c : Fin C) → Fin (m.ns c) → ℝ} (h : UniformD g m N n) (h0 : wtotU m Sphere.w0 n ≠ 0) (c : Fin C) (s : Fin (m.ns c)) :
    Uniform g (hardSphereGrad g m N c s) (nr g.S * hardSphereGradU m n c s) := by
  obtain ⟨f1, f2, f3⟩ := fmtGrad_flat (fmtU m n) rfl rfl rfl
  have k1 : (fmtGradU m n).n1v = fun _ => 0 := f1
  have k2 : (fmtGradU m n).n2v = fun _ => 0 := f2
  have k3 : (fmtGradU m n).n2m = ⟨0, 0, 0, 0, 0⟩ := f3
  have kb : ∀ Rhm scale c, (bndGradU m Rhm scale n c).n2v = fun _ => 0 := fun Rhm scale c => bndGrad_flat Rhm scale _ rfl
  have a0 : Uniform g (Idag g.S (Phi_n0mol g m N c)) (nr g.S * ((m.bonds c).map fun b => (bndGradU m b.1 (bondScale m c b) n c).n0).sum) := by
    refine Idag_field_uniform g hS _ _ fun j _ => ?_
    unfold Phi_n0mol
    simp only [bndGradAt_uniform g m hS h]
  have a1 : Uniform g (Idag g.S (PhiFMTgrad g (weighted g m N)).n0) (nr g.S * (fmtGradU m n).n0) :=
    Idag_field_uniform g hS _ _ fun j _ => by simp only [PhiFMTgrad, fmtGradAt_uniform g m hS h]
  have a2 : Uniform g (Idag g.S (PhiFMTgrad g (weighted g m N)).n1) (nr g.S * (fmtGradU m n).n1) :=
    Idag_field_uniform g hS _ _ fun j _ => by simp only [PhiFMTgrad, fmtGradAt_uniform g m hS h]
  have a3 : Uniform g (Idag g.S (Phi_n2 g m N)) (nr g.S * ((fmtGradU m n).n2 + ((allBonds m).map fun b => (bndGradU m b.2.1 (bondScale m b.1 b.2) n b.1).n2).sum)) := by
    refine Idag_field_uniform g hS _ _ fun j _ => ?_
    unfold Phi_n2
    simp only [PhiFMTgrad, fmtGradAt_uniform g m hS h, bndGradAt_uniform g m hS h]
  have dz : Uniform g (divergence g.S g.G fun _ => Idag g.S fun _ => 0) 0 := divergence_zero g hS _ fun k i _ => Idag_zero g i
  have a4 : Uniform g (Phi_n3 g m N) (nr g.S * ((fmtGradU m n).n3 + ((allBonds m).map fun b => (bndGradU m b.2.1 (bondScale m b.1 b.2) n b.1).n3).sum)) := by
    have e1 : Uniform g (PhiFMTgrad g (weighted g m N)).n3 (nr g.S * (fmtGradU m n).n3) := by
      have := uniform_add g (Idag_uniform g hS (fmtGradU m n).n3) dz
      rw [add_zero] at this
      simp only [PhiFMTgrad, fmtGradAt_uniform g m hS h, k2]
      exact this
    have e2 : ∀ b ∈ allBonds m, Uniform g (PhiBond_n3 g b.2.1 (bondScale m b.1 b.2) (n0mol g m N b.1) (weighted g m N).n2 (weighted g m N).n3)
        (nr g.S * (bndGradU m b.2.1 (bondScale m b.1 b.2) n b.1).n3) := by
      intro b _
      have := uniform_add g (Idag_uniform g hS (bndGradU m b.2.1 (bondScale m b.1 b.2) n b.1).n3) dz
      rw [add_zero] at this
      unfold PhiBond_n3
      simp only [bndGradAt_uniform g m hS h, kb]
      exact this
    have := uniform_add g e1 (uniform_listSum g (allBonds m) _ _ e2)
    rw [List.sum_map_mul_left, ← mul_add] at this
    exact this
  have a5 : Uniform g (PhiFMTgrad g (weighted g m N)).n1v 0 := by
    have := uniform_neg g dz
    rw [neg_zero] at this
    simp only [PhiFMTgrad, fmtGradAt_uniform g m hS h, k1]
    exact this
  have a6 : Uniform g (PhiFMTgrad g (weighted g m N)).n2m 0 := by
    refine uniform_of_zero g hS fun i hi => ?_
    simp only [PhiFMTgrad, fmtGradAt_uniform g m hS h, k3]
    rw [tensorGrad_at g hS _ i hi]
    simp only [wMul, Idag_zero, zero_mul, add_zero]
  have w (wt : Nat → ℝ) {X : Arr} {a : ℝ} (hX : Uniform g X a) : Uniform g (fun i => (m.T : ℂ) * wMul wt X i) (m.T * (wt 0 * a)) := uniform_smul g (uniform_wMul g hX wt) m.T
  have := uniform_add g (uniform_add g (uniform_add g (uniform_add g (uniform_add g (uniform_add g (w (m.sphere c s).w0 a0) (w (m.sphere c s).w0 a1)) (w (m.sphere c s).w1 a2)) (w (m.sphere c s).w2 a3))
    (w (m.sphere c s).w3 a4)) (w (m.sphere c s).w1v a5)) (w (m.sphere c s).w2m a6)
  unfold hardSphereGradU
  rw [if_pos h0]
  convert this using 1
  · rfl
  · ring

/-! ### Contributions -/

section
variable {ns : Fin C → Nat} (mult : (c : Fin C) → Fin (ns c) → Nat) (Nmol : Fin C → ℝ)

/-- Sum over sites of a quantity that is picked. -/
theorem pick_sum {α β : Type} [Fintype α] [Fintype β] [DecidableEq β] (pick : α → β) (x : α → ℝ) (w : β → ℝ) : ∑ i, (∑ s, if pick s = i then x s else 0) * w i = ∑ s, x s * w (pick s) := by
  simp only [Finset.sum_mul]
  rw [Finset.sum_comm]
  refine Finset.sum_congr rfl fun s _ => ?_
  rw [Finset.sum_eq_single (pick s)]
  · rw [if_pos rfl]
  · intro i _ hi; rw [if_neg (Ne.symm hi), zero_mul]
  · intro h; exact absurd (Finset.mem_univ _) h

theorem spheres_bulk (hS : g.S.Pos) (hV : g.dV * nr g.S = g.detR) (pick : (c : Fin C) → Fin (m.ns c) → Fin (ns c)) (hN : ∀ c, 0 < Nmol c) (hm : ∀ c s, 0 < mult c s)
    (hw : ∀ c s, 0 < (m.sphere c s).w0 0) : TermBulk g mult Nmol (termSpheres g m pick) (uSpheres m pick) := by
  intro N h
  have hu : UniformD g m (fun c s => N c (pick c s)) (fun c s => Nmol c * mult c (pick c s)) := fun c s => h c _
  have hp : ∀ c s, 0 < Nmol c * mult c (pick c s) := fun c s => mul_pos (hN c) (by exact_mod_cast hm c _)
  refine ⟨hardSphere_uniform g m hS hV _ _ hu (fun c s => (hp c s).le) hw, fun _ _ => rfl, ?_⟩
  refine ⟨fun c i => (uSpheres m pick).G (fun c s => Nmol c * mult c s) c i, fun c i => ?_, fun c => rfl⟩
  have key : ∀ s, Uniform g (hardSphereGrad g m (fun c s => N c (pick c s)) c s) (nr g.S * hardSphereGradU m (fun c s => Nmol c * mult c (pick c s)) c s) := by
    intro s
    refine hardSphereGrad_uniform g m hS hu ?_ c s
    have nn : ∀ c s, 0 < (m.sphere c s).w0 0 * (Nmol c * mult c (pick c s)) := fun c s => mul_pos (hw c s) (hp c s)
    refine (lt_of_lt_of_le (nn c s) ?_).ne'
    refine le_trans ?_ (Finset.single_le_sum (f := fun c => wsumU m Sphere.w0 (fun c s => Nmol c * mult c (pick c s)) c) (fun c _ => Finset.sum_nonneg fun s _ => (nn c s).le) (Finset.mem_univ c))
    exact Finset.single_le_sum (f := fun s => (m.sphere c s).w0 0 * (Nmol c * mult c (pick c s))) (fun s _ => (nn c s).le) (Finset.mem_univ s)
  have := uniform_sum g Finset.univ (fun s => if pick c s = i then hardSphereGrad g m (fun c s => N c (pick c s)) c s else fun _ => 0)
    (fun s => nr g.S * if pick c s = i then hardSphereGradU m (fun c s => Nmol c * mult c (pick c s)) c s else 0) (fun s _ => by
      by_cases hi : pick c s = i
      · simp only [if_pos hi]; exact key s
      · simp only [if_neg hi, mul_zero]; exact uniform_zero g)
  rw [← Finset.mul_sum] at this
  convert this using 1
  · funext k
    simp only [termSpheres]
    refine Finset.sum_congr rfl fun s _ => ?_
    split_ifs <;> rfl
  · rfl

theorem sum_bulk (l : List (Term ns × UTerm ns)) (h : ∀ t ∈ l, TermBulk g mult Nmol t.1 t.2) : TermBulk g mult Nmol (termSum (l.map Prod.fst)) (uSum (l.map Prod.snd)) := by
  intro N hN
  refine ⟨?_, ?_, ?_⟩
  · simp only [termSum, uSum, List.map_map]
    rw [← addO_mul, List.map_map]
    congr 1
    exact List.map_congr_left fun t ht => ((h t ht) N hN).1
  · intro c k
    simp only [termSum, List.map_map]
    refine List.sum_eq_zero fun x hx => ?_
    obtain ⟨t, ht, rfl⟩ := List.mem_map.1 hx
    exact ((h t ht) N hN).2.1 c k
  · induction l with
    | nil => exact ⟨fun _ _ => 0, fun c s => by simpa [termSum] using uniform_zero g, fun c => by simp [uSum]⟩
    | cons t l ih =>
      obtain ⟨φ, h1, h2⟩ := ih fun t ht => h t (by simp [ht])
      obtain ⟨-, -, ψ, k1, k2⟩ := h t (by simp) N hN
      refine ⟨fun c s => ψ c s + φ c s, fun c s => ?_, fun c => ?_⟩
      · have := uniform_add g (k1 c s) (h1 c s)
        rw [← mul_add] at this
        simp only [termSum, List.map_cons, List.sum_cons] at this ⊢
        exact this
      · simp only [add_mul, Finset.sum_add_distrib, k2, h2]
        simp only [uSum, List.map_cons, List.sum_cons, add_mul, Finset.sum_add_distrib]

theorem eos_bulk (hS : g.S.Pos) (hV : g.dV * nr g.S = g.detR) (c0 : Fin C) {n : Nat} (sites : Fin (n + 1) → Site) (pick : Fin (n + 1) → Fin (ns c0)) (hα : alphaTot sites ≠ 0) (h0 : (sites 0).mult ≠ 0)
    (hmult : ∀ s, (sites s).mult = mult c0 (pick s)) (w : Nat → ℝ) (hw : w 0 = 1) (e : ℝ → Option (ℝ × ℝ)) :
    TermBulk g mult Nmol (termEos g c0 sites pick w e) (uEos c0 (pick 0) (sites 0).mult e) := by
  intro N h
  have hN : ∀ s, Uniform g (N c0 (pick s)) ((sites s).mult * Nmol c0) := fun s => by
    have := h c0 (pick s); rwa [hmult s, mul_comm]
  have u := navg_uniform g sites hα (fun s => N c0 (pick s)) (Nmol c0) hN
  have a1 : ∀ j, eosNavg g sites (fun s => N c0 (pick s)) j = Nmol c0 := fun j => fftI_uniform g hS u j
  have a2 : ∀ j, eosNbar g sites w (fun s => N c0 (pick s)) j = Nmol c0 := fun j => by
    have := fftI_uniform g hS (uniform_wMul g u w) j
    rw [hw, one_mul] at this; exact this
  have hm : ((sites 0).mult : ℝ) ≠ 0 := by exact_mod_cast h0
  have e1 : (Nmol c0 * mult c0 (pick 0)) * (1 / ((sites 0).mult : ℝ)) = Nmol c0 := by rw [← hmult 0]; field_simp
  -- the gradient per site
  set A : ℝ := ((e (Nmol c0)).map fun a => a.1 + Nmol c0 * a.2).getD 0 with hA
  have gs : ∀ s, Uniform g (eosGrad g sites w e (fun s => N c0 (pick s)) s) (nr g.S * (A * ((sites s).alpha / alphaTot sites))) := by
    intro s
    unfold eosGrad
    simp only [a1, a2]
    have i1 := uniform_wMul g (Idag_uniform g hS (Nmol c0 * ((e (Nmol c0)).map Prod.snd).getD 0)) w
    have i2 := Idag_uniform g hS (((e (Nmol c0)).map Prod.fst).getD 0)
    have := uniform_smul g (uniform_add g i1 i2) ((sites s).alpha / alphaTot sites)
    convert this using 1
    · funext i; ring
    · rw [hA, hw]
      cases e (Nmol c0) with
      | none => simp
      | some a => simp only [Option.map_some, Option.getD_some]; ring
  refine ⟨?_, fun _ _ => rfl, fun c i => if hc : c = c0 then ∑ s, if pick s = hc ▸ i then A * ((sites s).alpha / alphaTot sites) else 0 else 0, fun c i => ?_, fun c => ?_⟩
  · simp only [termEos, uEos, eosE, a1, a2]
    rw [sumO_const _ (nr_pos _ hS)]
    simp only [eosU, e1, Option.map_map]
    congr 1; funext x; simp only [Function.comp_apply]; rw [← hV]; ring
  · by_cases hc : c = c0
    · subst hc
      simp only [termEos, dite_true]
      have := uniform_sum g Finset.univ (fun s => if pick s = i then eosGrad g sites w e (fun s => N c (pick s)) s else fun _ => 0)
        (fun s => nr g.S * if pick s = i then A * ((sites s).alpha / alphaTot sites) else 0) (fun s _ => by
          by_cases hi : pick s = i
          · simp only [if_pos hi]; exact gs s
          · simp only [if_neg hi, mul_zero]; exact uniform_zero g)
      rw [← Finset.mul_sum] at this
      convert this using 1
      funext k
      refine Finset.sum_congr rfl fun s _ => ?_
      split_ifs <;> rfl
    · simp only [termEos, dif_neg hc, mul_zero]; exact uniform_zero g
  · by_cases hc : c = c0
    · subst hc
      simp only [uEos, dite_true]
      rw [pick_sum pick]
      have r : ∑ i, (if pick 0 = i then ((eosU e (sites 0).mult (Nmol c * mult c (pick 0))).map Prod.snd).getD 0 else 0) * (mult c i : ℝ)
          = ((eosU e (sites 0).mult (Nmol c * mult c (pick 0))).map Prod.snd).getD 0 * mult c (pick 0) := by
        rw [Finset.sum_eq_single (pick 0)]
        · rw [if_pos rfl]
        · intro i _ hi; rw [if_neg (Ne.symm hi), zero_mul]
        · intro h; exact absurd (Finset.mem_univ _) h
      rw [r]
      have l : ∑ s, A * ((sites s).alpha / alphaTot sites) * (mult c (pick s) : ℝ) = A := by
        have : ∀ s, A * ((sites s).alpha / alphaTot sites) * (mult c (pick s) : ℝ) = A / alphaTot sites * ((sites s).alpha * (sites s).mult) := fun s => by rw [hmult s]; ring
        rw [Finset.sum_congr rfl fun s _ => this s, ← Finset.mul_sum]
        show _ * alphaTot sites = _
        field_simp
      rw [l, ← hmult 0, hA]
      have e1' : (Nmol c * (sites 0).mult) * (1 / ((sites 0).mult : ℝ)) = Nmol c := by field_simp
      cases he : e (Nmol c) with
      | none => simp only [eosU, e1', he, Option.map_none, Option.getD_none, zero_mul]
      | some a =>
        simp only [eosU, e1', he, Option.map_some, Option.getD_some]
        field_simp
    · simp only [uEos, dif_neg hc]

theorem pair_bulk (hS : g.S.Pos) (h2 : EvenGrid g) (hV : g.dV * nr g.S = g.detR) (c1 : Fin C) (s1 : Fin (ns c1)) (c2 : Fin C) (s2 : Fin (ns c2)) (a : ℝ) (w : Nat → ℝ) :
    TermBulk g mult Nmol (termPair g c1 s1 c2 s2 a w) (uPair c1 s1 c2 s2 a w) := by
  intro N h
  have u : ∀ c s, Uniform g (kerV g a w (N c s)) (nr g.S * (a * w 0 * (Nmol c * mult c s))) := fun c s => by
    have := uniform_smul g (uniform_wMul g (h c s) w) (a * nr g.S)
    convert this using 1
    · rfl
    · ring
  have pk : ∀ (c' : Fin C) (s' : Fin (ns c')) (X : Arr) (x : ℝ), Uniform g X (nr g.S * x) → ∀ c i,
      Uniform g (fun k => if h : c = c' then if s' = h ▸ i then X k else 0 else 0) (nr g.S * (if h : c = c' then if s' = h ▸ i then x else 0 else 0)) := by
    intro c' s' X x hX c i
    by_cases hc : c = c'
    · subst hc
      simp only [dite_true]
      by_cases hi : s' = i
      · simp only [if_pos hi]; exact hX
      · simp only [if_neg hi, mul_zero]; exact uniform_zero g
    · simp only [dif_neg hc, mul_zero]; exact uniform_zero g
  refine ⟨?_, fun _ _ => rfl, fun c i => (uPair c1 s1 c2 s2 a w).G (fun c s => Nmol c * mult c s) c i, fun c i => ?_, fun c => rfl⟩
  · simp only [termPair, uPair, mixE, mixU, Option.map_some, dotHalf_innerG g h2 hS]
    rw [uniform_dot g hS (u c1 s1) (h c2 s2), ← hV]
    congr 1; ring
  · have := uniform_add g (pk c1 s1 _ _ (u c2 s2) c i) (pk c2 s2 _ _ (u c1 s1) c i)
    rw [← mul_add] at this
    exact this

theorem coulomb_bulk (hS : g.S.Pos) (h2 : EvenGrid g) (q : (c : Fin C) → Fin (ns c) → Nat → ℝ) (mf : Fin C → Nat → ℝ) (useMF : Bool) :
    TermBulk g mult Nmol (termCoulomb g q mf useMF (fun _ => 0) fun _ => 0) uCoulomb := by
  intro N h
  have cz : ∀ (X : Arr) (x : ℝ), Uniform g X x → ∀ i : Nat, i < nG g.S → PCM.opO g (PCM.coulomb g X) i = 0 := by
    intro X x hX i hi
    simp only [PCM.opO, PCM.coulomb, PCM.opLinv]
    rcases Nat.eq_zero_or_pos i with h0 | h0
    · subst h0; simp
    · rw [hX.2 i h0 hi]; simp
  have hr : Uniform g (fun i => ∑ c, ∑ s, ((q c s 0 : ℝ) : ℂ) * wMul (mf c) (N c s) i) (∑ c, ∑ s, q c s 0 * (mf c 0 * (Nmol c * mult c s))) :=
    uniform_sum g Finset.univ _ _ fun c _ => uniform_sum g Finset.univ _ _ fun s _ => uniform_smul g (uniform_wMul g (h c s) _) _
  have z1 := cz _ _ hr
  have z2 := cz (fun _ => 0) 0 (uniform_zero g)
  have iz : ∀ X Y : Arr, (∀ i : Nat, i < nG g.S → Y i = 0) → dotHalf g.S X Y = 0 := by
    intro X Y hY
    rw [dotHalf_innerG g h2 hS]
    refine Finset.sum_eq_zero fun i hi => ?_
    rw [hY i (Finset.mem_range.1 hi)]; simp
  refine ⟨?_, fun c k => ?_, fun _ _ => 0, fun c s => ?_, fun c => ?_⟩
  · simp only [termCoulomb, uCoulomb, Option.map_some]
    rw [iz _ _ z1, iz _ _ z2]
    simp
  · simp [termCoulomb]
  · rw [mul_zero]
    refine uniform_of_zero g hS fun i hi => ?_
    simp only [termCoulomb]
    have z2' : PCM.opO g (PCM.coulomb g fun _ => 0) i = 0 := z2 i hi
    have z1' := z1 i hi
    have wz : ∀ (w : Nat → ℝ) (X : Arr), X i = 0 → wMul w X i = 0 := fun w X hX => by simp only [wMul, hX, zero_mul]
    rw [wz _ _ (by cases useMF <;> simp [z2']), wz _ _ (by rw [z1', z2']; simp)]
    simp
  · simp [uCoulomb]

end
end

/-! ### Ideal gases -/

theorem mono_bulk (hV : g.dV * nr g.S = g.detR) (T mu Nb : ℝ) : GasBulk g T (fun _ => 1) mu Nb (gasMono g T mu Nb fun _ => 0) where
  dens := fun i j _ => by simp [gasMono]
  pol := fun k => rfl
  energy := fun X hX => by
    have : dotF g (X 0) (fun j => T * 0 + 0 - (mu + T)) = dotF g (fun _ => Nb) fun _ => -(T + mu) :=
      dotF_congr g (fun j hj => by rw [hX 0 j hj]; simp) fun _ _ => by ring
    simp only [gasMono]
    rw [this, ← hV]
    simp only [dotF, Finset.sum_const, Finset.card_range, nsmul_eq_mul]; ring
  addN := ⟨fun _ => -mu, fun i j _ => by simp [gasMono], by simp⟩
  addScale := rfl
  conv := fun X A φ hX hA h k j hj => by
    have h0 : φ 0 = 0 := by simpa using h
    simp only [gasMono]
    rw [hA 0 j hj, h0, mul_zero]

section
variable {n nO : Nat} (o : Orient n nO) (r : Rep)

theorem move_const (hS : g.S.Pos) (l : List (Fin 3 → ℝ)) (c : ℝ) (x : Field) (hx : ∀ j < nr g.S, x j = c) (j : Nat) (hj : j < nr g.S) : o.move g l x j = l.length * c := by
  unfold Orient.move
  have : (l.map fun f => o.trans.run g.S f x j) = l.map fun _ => c := List.map_congr_left fun f _ => run_uniform g.S o.trans hS f c x hx j hj
  rw [this]; simp

theorem back_length (l : List (Fin 3 → ℝ)) : (back l).length = l.length := by simp [back]

theorem logP_zero (hS : g.S.Pos) (w : Fin nO) (j : Nat) (hj : j < nr g.S) : o.logP g r (fun _ _ => 0) w j = 0 := by
  cases r with
  | pomega => rfl
  | psiAlpha =>
    show ∑ i, o.move g (back (o.disp w i)) (fun _ => 0) j = 0
    exact Finset.sum_eq_zero fun i _ => by rw [move_const g o hS _ 0 _ (fun _ _ => rfl) j hj, mul_zero]
  | muEps => simp [Orient.logP, Orient.logMuEps]

theorem gradRep_zero (hS : g.S.Pos) (Y : Fin nO → Field) (z : ∀ w, ∀ j < nr g.S, Y w j = 0) (k : Fin (r.nI n nO)) (j : Nat) (hj : j < nr g.S) : o.gradRep g r Y k j = 0 := by
  cases r with
  | pomega => exact z k j hj
  | psiAlpha =>
    have : ∀ i : Fin (n + 1), ∑ w, o.move g (o.disp w i) (Y w) j = 0 := fun i => Finset.sum_eq_zero fun w _ => by rw [move_const g o hS _ 0 _ (z w) j hj, mul_zero]
    exact this k
  | muEps =>
    have : ∀ d : Fin nO → ℝ, ∑ w, d w * Y w j = 0 := fun d => Finset.sum_eq_zero fun w _ => by rw [z w j hj, mul_zero]
    have h1 : ∑ w, Y w j = 0 := Finset.sum_eq_zero fun w _ => z w j hj
    have : ∀ i : Fin 4, o.gradMuEps Y i j = 0 := by
      intro i
      fin_cases i
      · exact h1
      · exact this _
      · exact this _
      · exact this _
    exact this k

theorem orient_bulk (hS : g.S.Pos) (hV : g.dV * nr g.S = g.detR) (mult : Fin (n + 1) → Nat) (h0 : 0 < mult 0) (hm : o.mult0 = mult 0) (hl : ∀ w i, (o.disp w i).length = mult i)
    (hw : ∑ w, o.weight w = 1) (hd : ∀ k, ∑ w, o.weight w * o.dip w k = 0) (hv : ∀ i j, o.V i j = 0) : GasBulk g o.T mult o.mu o.Nbulk (o.gas g r) := by
  have hm0 : (mult 0 : ℝ) ≠ 0 := by exact_mod_cast h0.ne'
  have eN : ∀ w, ∀ j < nr g.S, o.No g r (fun _ _ => 0) w j = o.weight w * o.Nbulk := fun w j hj => by
    unfold Orient.No; rw [logP_zero g o r hS w j hj]; simp
  have eP : ∀ k, ∀ j < nr g.S, o.P g r (fun _ _ => 0) k j = 0 := fun k j hj => by
    unfold Orient.P
    rw [Finset.sum_congr rfl fun w _ => by rw [eN w j hj]]
    have : ∑ w, o.dip w k * (o.weight w * o.Nbulk) = (∑ w, o.weight w * o.dip w k) * o.Nbulk := by
      rw [Finset.sum_mul]; exact Finset.sum_congr rfl fun w _ => by ring
    rw [this, hd k, zero_mul]
  have eE : ∀ k, ∀ j, o.EcorrP g r (fun _ _ => 0) k j = 0 := fun k j => by
    unfold Orient.EcorrP
    have u := uniform_wMul g (uniform_wMul g (uniform_smul g (fftJ_uniform g hS 0 _ (eP k)) o.corrPrefac) o.mfKernel) o.mfKernel
    have := fftI_uniform g hS u j
    simpa using this
  have eS : o.S g r (fun _ _ => 0) = 0 := by
    unfold Orient.S
    refine Finset.sum_eq_zero fun w _ => ?_
    rw [dotF_congr g (fun _ _ => rfl) (fun j hj => logP_zero g o r hS w j hj), dotF_const_right, zero_mul, mul_zero]
  have eC : o.Ecorr g r (fun _ _ => 0) = 0 := by
    unfold Orient.Ecorr
    rw [Finset.sum_eq_zero fun k _ => ?_, mul_zero]
    rw [dotF_congr g (fun j _ => eE k j) (fun _ _ => rfl), dotF_const_left, zero_mul]
  exact {
    dens := fun i j hj => by
      show ∑ w, o.move g (o.disp w i) (o.No g r (fun _ _ => 0) w) j = _
      rw [Finset.sum_congr rfl fun w _ => by rw [move_const g o hS _ _ _ (eN w) j hj, hl w i], ← Finset.mul_sum, ← Finset.sum_mul, hw]; ring
    pol := fun k => by
      show (∑ j ∈ Finset.range (nr g.S), o.P g r (fun _ _ => 0) k j) / nr g.S = 0
      rw [Finset.sum_eq_zero fun j hj => eP k j (Finset.mem_range.1 hj), zero_div]
    energy := fun X hX => by
      show ∑ i, g.dV * dotF g (X i) (o.V i) - (o.T + o.mu) * integ g (X 0) * (1 / o.mult0) + 1 * (o.T * o.S g r (fun _ _ => 0) + o.Ecorr g r (fun _ _ => 0)) = _
      rw [eS, eC, Finset.sum_eq_zero fun i _ => ?_, hm, ← hV]
      · have : integ g (X 0) = g.dV * (nr g.S * (o.Nbulk * mult 0)) := by
          unfold integ
          rw [Finset.sum_congr rfl fun j hj => hX 0 j (Finset.mem_range.1 hj)]
          simp
        rw [this]; field_simp; ring
      · rw [dotF_congr g (fun _ _ => rfl) (fun j _ => hv i j), dotF_const_right]; ring
    addN := ⟨fun i => -(if i = 0 then o.mu * (1 / o.mult0) else 0), fun i j _ => by
        show o.V i j - _ = _
        rw [hv]; ring, by
        rw [Finset.sum_eq_single 0]
        · simp only [if_true, hm]; field_simp
        · intro i _ hi; simp only [if_neg hi]; ring
        · intro h; exact absurd (Finset.mem_univ _) h⟩
    addScale := by
      show o.T * o.S g r (fun _ _ => 0) + o.Ecorr g r (fun _ _ => 0) = 0
      rw [eS, eC]; ring
    conv := by
      intro X A φ hX hA h k j hj
      have z : ∀ w, ∀ j < nr g.S, (1 * o.No g r (fun _ _ => 0) w j) * o.PhiNo g r (fun _ _ => 0) A (fun _ => 0) 1 w j = 0 := by
        intro w j hj
        have : o.PhiNo g r (fun _ _ => 0) A (fun _ => 0) 1 w j = 0 := by
          unfold Orient.PhiNo
          rw [Finset.sum_congr rfl fun i _ => by rw [move_const g o hS _ _ _ (hA i) j hj, back_length, hl w i], logP_zero g o r hS w j hj]
          simp only [eE, mul_zero, Finset.sum_const_zero, add_zero]
          rw [← h]; exact Finset.sum_congr rfl fun i _ => by ring
        rw [this, mul_zero]
      show o.gradRep g r (fun w j => (1 * o.No g r (fun _ _ => 0) w j) * o.PhiNo g r (fun _ _ => 0) A (fun _ => 0) 1 w j) k j = 0
      exact gradRep_zero g o r hS _ z k j hj }

end

/-! ### The bulk state -/

section
variable {C : Nat} (R : Recipe C) (p : ℝ) (Nmol mu : Fin C → ℝ)

/-- The bulk state: all independent fields are zero. -/
def Recipe.zero : (R.mix p Nmol mu).State := fun _ _ _ => 0

theorem bulk_eval (hS : g.S.Pos) (hV : g.dV * nr g.S = g.detR) (hN : ∀ c, 0 < Nmol c) (hm : ∀ c, 0 < R.mult c 0) (hQ : ∑ c, R.Q c * Nmol c = 0) (hq : R.Qtol ≠ 0)
    (u : UTerm fun c => R.ns c + 1) (a : ℝ) (hu : uniformEx u R.mult Nmol = some (a, mu)) (hgas : ∀ c, GasBulk g R.T (R.mult c) (mu c) (Nmol c) (R.gas c (mu c) (Nmol c)))
    (ht : TermBulk g R.mult Nmol (termSum R.terms) u) :
    ∃ G, (R.mix p Nmol mu).evaluate g (R.zero p Nmol mu) = .ok (some (g.detR * (a - ∑ c, Nmol c * (R.T + mu c) + p)), G) ∧ ∀ c k, ∀ j < nr g.S, G c k j = 0 := by
  set m := R.mix p Nmol mu with hmix
  set psi := R.zero p Nmol mu with hpsi
  have hm' : ∀ c, (R.mult c 0 : ℝ) ≠ 0 := fun c => by exact_mod_cast (hm c).ne'
  have hnr : (nr g.S : ℝ) ≠ 0 := by exact_mod_cast (nr_pos g.S hS).ne'
  have hd : ∀ c (i : Fin (R.ns c + 1)), ∀ j < nr g.S, m.dens0 psi c i j = Nmol c * R.mult c i := fun c i j hj => by
    have e : (m.comp c).gas.N (psi c) i j = Nmol c * R.mult c i := (hgas c).dens i j hj
    unfold MixF.dens0
    simp only []
    rw [e, if_neg (not_lt.2 (mul_nonneg (hN c).le (Nat.cast_nonneg _)))]
  have ht0 : ∀ c (i : Fin (R.ns c + 1)), Uniform g (m.tilde0 g psi c i) (Nmol c * R.mult c i) := fun c i => fftJ_uniform g hS _ _ (hd c i)
  have hc : ∀ c, m.count g psi c = g.detR * Nmol c := fun c => by
    rw [count_eq g m hS hV psi c]
    have : integ g (m.dens0 psi c 0) = g.detR * (Nmol c * R.mult c 0) := by
      have e : ∑ j ∈ Finset.range (nr g.S), m.dens0 psi c 0 j = ∑ j ∈ Finset.range (nr g.S), Nmol c * R.mult c 0 := Finset.sum_congr rfl fun j hj => hd c 0 j (Finset.mem_range.1 hj)
      unfold integ
      rw [e, ← hV]; simp; ring
    rw [this]
    show g.detR * (Nmol c * R.mult c 0) / (R.mult c 0 : ℝ) = _
    have := hm' c
    field_simp
  have hfix : ∀ c, ¬ m.fixed c := fun c => lt_irrefl 0
  have hQf : m.Qfixed = 0 := by
    unfold MixF.Qfixed
    rw [Finset.sum_eq_zero fun c _ => if_neg (hfix c)]
    show (0 : ℝ) + 0 = 0
    simp
  have hfree : ∀ c, m.free c ↔ R.Q c ≠ 0 := fun c => ⟨fun h => h.1, fun h => ⟨h, lt_irrefl 0⟩⟩
  have hQt : m.Qtot (m.count g psi) 0 = 0 := by
    unfold MixF.Qtot
    have : ∀ c, (open Classical in if m.free c then (m.comp c).Q * (m.count g psi c * Real.exp (-(m.comp c).Q * 0)) else 0) = g.detR * (R.Q c * Nmol c) := by
      intro c
      by_cases h : m.free c
      · rw [if_pos h, hc c, mul_zero, Real.exp_zero]
        show R.Q c * _ = _
        ring
      · rw [if_neg h]
        have : R.Q c = 0 := by by_contra h'; exact h ((hfree c).2 h')
        rw [this]; ring
    rw [Finset.sum_congr rfl fun c _ => this c, ← Finset.mul_sum, hQ, mul_zero]
  obtain ⟨Qp, hsol⟩ : ∃ Qp, m.solve (m.count g psi) = .ok (0, Qp) := by
    unfold MixF.solve
    by_cases hf : ∃ c, m.free c
    · rw [if_neg (not_not.2 hf), if_neg (by rw [hQf]; simp), if_neg (by rw [hQf]; simp)]
      refine ⟨m.Qprime (m.count g psi) 0, ?_⟩
      congr 1
      unfold MixF.newton
      simp only []
      rw [hQf, hQt, if_pos (by rw [add_zero, abs_zero]; exact abs_pos.2 hq)]
    · rw [if_pos hf, if_neg (by rw [hQf, abs_zero]; exact not_lt.2 (abs_nonneg _))]
      exact ⟨0, rfl⟩
  have hns : m.nscale (m.count g psi) 0 = fun _ => 1 := by
    funext c
    unfold MixF.nscale
    rw [if_neg (hfix c)]
    split
    · simp
    · rfl
  have hti : ∀ c (i : Fin (R.ns c + 1)), Uniform g (m.tilde g psi (fun _ => 1) c i) (Nmol c * R.mult c i) := fun c i => by
    have := uniform_smul g (ht0 c i) 1
    rw [one_mul] at this
    exact this
  have hP : m.P0 psi (fun _ => 1) = fun _ _ => 0 := by
    funext c k
    have : (m.comp c).gas.P0 (psi c) k = 0 := (hgas c).pol k
    unfold MixF.P0
    rw [this, zero_mul]
  have hNf : ∀ c (i : Fin (R.ns c + 1)), ∀ j, m.N g psi (fun _ => 1) c i j = Nmol c * R.mult c i := fun c i j => fftI_uniform g hS (hti c i) j
  obtain ⟨t1, t2, φ, t3, t4⟩ := ht _ hti
  have hua : u.E (fun c s => Nmol c * R.mult c s) = some a ∧ (fun c => ∑ i, u.G (fun c s => Nmol c * R.mult c s) c i * R.mult c i) = mu := by
    unfold uniformEx at hu
    obtain ⟨x, hx, he⟩ := Option.map_eq_some_iff.1 hu
    have e1 := congrArg Prod.fst he
    have e2 := congrArg Prod.snd he
    simp only at e1 e2
    exact ⟨by rw [← e1]; exact hx, e2⟩
  have t4' : ∀ c, ∑ s, φ c s * R.mult c s = mu c := fun c => by rw [t4 c]; exact congrFun hua.2 c
  -- gradients with respect to densities
  have ha : ∀ c, ∃ b : Fin (R.ns c + 1) → ℝ, (∀ i, ∀ j < nr g.S, (m.comp c).gas.addN (psi c) i j = b i) ∧ ∑ i, b i * R.mult c i = -mu c := fun c => (hgas c).addN
  choose b hb1 hb2 using ha
  have hPhi : ∀ c (i : Fin (R.ns c + 1)), ∀ j < nr g.S, m.PhiN g psi (fun _ => 1) c i j = φ c i + b c i := fun c i j hj => by
    unfold MixF.PhiN
    rw [if_neg (by simp), hP]
    have e : Jdag g.S ((termSum m.terms).GN (m.tilde g psi fun _ => 1) (fun _ _ => 0) c i) j = φ c i := by
      unfold Jdag
      have := fftI_uniform g hS (t3 c i) j
      have h2 : fftI g.S ((termSum m.terms).GN (m.tilde g psi fun _ => 1) (fun _ _ => 0) c i) j = nr g.S * φ c i := this
      rw [h2]; field_simp
    rw [e, hb1 c i j hj, add_zero]
  have hsum : ∀ c, ∑ i, (φ c i + b c i) * R.mult c i = 0 := fun c => by
    simp only [add_mul, Finset.sum_add_distrib]
    rw [t4' c, hb2 c]; ring
  have hPP : m.PhiP g psi (fun _ => 1) = fun _ _ => 0 := by
    funext c k
    unfold MixF.PhiP
    rw [hP]
    exact t2 c k
  have hsc : ∀ c, m.PhiScale g psi (fun _ => 1) c = 0 := fun c => by
    unfold MixF.PhiScale
    have e1 : (m.comp c).gas.addScale (psi c) = 0 := (hgas c).addScale
    have e2 : ∀ i : Fin (R.ns c + 1), g.dV * dotF g (m.N g psi (fun _ => 1) c i) (m.PhiN g psi (fun _ => 1) c i) / 1 = g.detR * Nmol c * ((φ c i + b c i) * R.mult c i) := fun i => by
      rw [dotF_congr g (fun j _ => hNf c i j) (hPhi c i), ← hV]
      simp only [dotF, Finset.sum_const, Finset.card_range, nsmul_eq_mul]; ring
    have e3 : ∑ i : Fin (m.ns c + 1), g.dV * dotF g (m.N g psi (fun _ => 1) c i) (m.PhiN g psi (fun _ => 1) c i) / 1 = 0 := by
      have : ∑ i : Fin (R.ns c + 1), g.detR * Nmol c * ((φ c i + b c i) * R.mult c i) = 0 := by rw [← Finset.mul_sum, hsum c, mul_zero]
      exact (Finset.sum_congr rfl fun i _ => e2 i).trans this
    rw [e1, hPP]
    simp only [mul_zero, Finset.sum_const_zero, zero_div, add_zero, zero_add]
    exact e3
  refine ⟨m.grad g psi (m.nscale (m.count g psi) 0) (m.jac (m.count g psi) 0 Qp), ?_, ?_⟩
  · show (do
      let (betaV, Qp) ← m.solve (m.count g psi)
      pure (m.energy g psi (m.nscale (m.count g psi) betaV), m.grad g psi (m.nscale (m.count g psi) betaV) (m.jac (m.count g psi) betaV Qp)) : Res _) = _
    rw [hsol]
    show Except.ok (m.energy g psi (m.nscale (m.count g psi) 0), _) = _
    congr 2
    rw [hns]
    unfold MixF.energy
    have e1 : (termSum m.terms).E (m.tilde g psi fun _ => 1) (m.P0 psi fun _ => 1) = some (g.detR * a) := by
      rw [hP]
      refine t1.trans ?_
      rw [hua.1]; rfl
    have e2 : ∀ c, (m.comp c).gas.energy (psi c) (m.N g psi (fun _ => 1) c) 1 = g.detR * (-(R.T + mu c) * Nmol c) := fun c => (hgas c).energy _ fun i j _ => hNf c i j
    simp only [e1, e2, ne_eq, not_true_eq_false, if_false, add_zero, addO, ← Finset.mul_sum]
    show some (g.detR * a + (g.detR * ∑ c, -(R.T + mu c) * Nmol c + (p * g.detR + 0))) = _
    congr 1
    have : ∑ c, Nmol c * (R.T + mu c) = -∑ c, -(R.T + mu c) * Nmol c := by rw [← Finset.sum_neg_distrib]; exact Finset.sum_congr rfl fun c _ => by ring
    rw [this]; ring
  · intro c k j hj
    rw [hns]
    unfold MixF.grad
    have hA : ∀ i : Fin (R.ns c + 1), ∀ j < nr g.S, m.PhiNtot g psi (fun _ => 1) (m.jac (m.count g psi) 0 Qp) c i j = φ c i + b c i := fun i j hj => by
      unfold MixF.PhiNtot
      rw [hPhi c i j hj, Finset.sum_eq_zero fun d _ => by rw [hsc d, zero_mul]]
      simp
    have := (hgas c).conv (m.N g psi (fun _ => 1) c) (m.PhiNtot g psi (fun _ => 1) (m.jac (m.count g psi) 0 Qp) c) (fun i => φ c i + b c i) (fun i j _ => hNf c i j) hA (hsum c) k j hj
    have h2 : (m.comp c).gas.conv (psi c) (m.N g psi (fun _ => 1) c) (m.PhiNtot g psi (fun _ => 1) (m.jac (m.count g psi) 0 Qp) c) (m.PhiP g psi (fun _ => 1) c) 1 k j = 0 := by
      rw [hPP]; exact this
    rw [h2, mul_zero]

end
end

/-! ### Thermodynamics of the uniform fluid -/

section
variable {C : Nat} {ns : Fin C → Nat}

theorem ugrad_value {u : UTerm ns} {n : (c : Fin C) → Fin (ns c) → ℝ} (h : UGrad u n) : ∃ a, u.E n = some a := by
  obtain ⟨F, hF, -⟩ := h fun _ _ => 0
  have := hF.self_of_nhds
  simp only [zero_mul, add_zero] at this
  exact ⟨_, this⟩

theorem usum_grad (l : List (UTerm ns)) (n : (c : Fin C) → Fin (ns c) → ℝ) (h : ∀ t ∈ l, UGrad t n) : UGrad (uSum l) n := by
  intro dn
  have := HasDerivO.addO l (f := fun t s => t.E fun c i => n c i + s * dn c i) (f' := fun t => ∑ c, ∑ i, t.G n c i * dn c i) (t := 0) fun t ht => h t ht dn
  refine HasDerivO.congr_deriv this ?_
  simp only [uSum]
  clear this h
  induction l with
  | nil => simp
  | cons t l ih => simp only [List.map_cons, List.sum_cons, ih, add_mul, Finset.sum_add_distrib]

theorem uspheres_grad (m : Mix C) (pick : (c : Fin C) → Fin (m.ns c) → Fin (ns c)) (n : (c : Fin C) → Fin (ns c) → ℝ) (hr : URegular m fun c s => n c (pick c s)) : UGrad (uSpheres m pick) n := by
  intro dn
  have := hardSphereU_deriv m (fun c s => n c (pick c s)) (fun c s => dn c (pick c s)) hr
  refine HasDerivO.congr_deriv this ?_
  refine Finset.sum_congr rfl fun c _ => ?_
  simp only [uSpheres]
  rw [pick_sum (pick c)]

theorem ucoulomb_grad (n : (c : Fin C) → Fin (ns c) → ℝ) : UGrad uCoulomb n := fun dn => by
  simpa [uCoulomb] using HasDerivO.const 0 0

theorem cond_sum (c0 : Fin C) (s0 : Fin (ns c0)) (x : ℝ) (d : (c : Fin C) → Fin (ns c) → ℝ) :
    ∑ c, ∑ i : Fin (ns c), (if h : c = c0 then if s0 = h ▸ i then x else 0 else 0) * d c i = x * d c0 s0 := by
  rw [Finset.sum_eq_single c0]
  · simp only [dite_true]
    rw [Finset.sum_eq_single s0]
    · rw [if_pos rfl]
    · intro i _ hi; rw [if_neg (Ne.symm hi), zero_mul]
    · intro h; exact absurd (Finset.mem_univ _) h
  · intro c _ hc
    exact Finset.sum_eq_zero fun i _ => by rw [dif_neg hc, zero_mul]
  · intro h; exact absurd (Finset.mem_univ _) h

theorem upair_grad (c1 : Fin C) (s1 : Fin (ns c1)) (c2 : Fin C) (s2 : Fin (ns c2)) (a : ℝ) (w : Nat → ℝ) (n : (c : Fin C) → Fin (ns c) → ℝ) : UGrad (uPair c1 s1 c2 s2 a w) n := by
  intro dn
  have h : HasDerivAt (fun t => (mixU a w (n c1 s1 + t * dn c1 s1) (n c2 s2 + t * dn c2 s2)).1) ((mixU a w (n c1 s1) (n c2 s2)).2.1 * dn c1 s1 + (mixU a w (n c1 s1) (n c2 s2)).2.2 * dn c2 s2) 0 := by
    refine bilin_deriv _ (n c1 s1 * a * w 0 * n c2 s2) _ (dn c1 s1 * a * w 0 * dn c2 s2) 0 (fun t => ?_) rfl
    simp only [mixU]; ring
  refine HasDerivO.congr_deriv (HasDerivO.of_some h) ?_
  simp only [uPair, add_mul, Finset.sum_add_distrib, cond_sum]

theorem ueos_grad (c0 : Fin C) (s0 : Fin (ns c0)) (mult0 : Nat) (h0 : mult0 ≠ 0) (e : ℝ → Option (ℝ × ℝ)) (n : (c : Fin C) → Fin (ns c) → ℝ) (hr : EosReg e (n c0 s0 / mult0)) : UGrad (uEos c0 s0 mult0 e) n := by
  intro dn
  have hm : (mult0 : ℝ) ≠ 0 := by exact_mod_cast h0
  have hc : HasDerivAt (fun t : ℝ => (n c0 s0 + t * dn c0 s0) * (1 / (mult0 : ℝ))) (dn c0 s0 * (1 / (mult0 : ℝ))) 0 := by
    have := (((hasDerivAt_id (0 : ℝ)).mul_const (dn c0 s0)).const_add (n c0 s0)).mul_const (1 / (mult0 : ℝ))
    simpa using this
  have z : (n c0 s0 + 0 * dn c0 s0) * (1 / (mult0 : ℝ)) = n c0 s0 / mult0 := by ring
  have h1 := HasDerivO.comp (c := fun t : ℝ => (n c0 s0 + t * dn c0 s0) * (1 / (mult0 : ℝ))) (t := 0) (by rw [z]; exact hr) hc
  have h2 := h1.mulFun hc
  have e1 : (fun t => (uEos c0 s0 mult0 e).E fun c i => n c i + t * dn c i)
      = fun t => ((e ((n c0 s0 + t * dn c0 s0) * (1 / (mult0 : ℝ)))).map Prod.fst).map ((n c0 s0 + t * dn c0 s0) * (1 / (mult0 : ℝ)) * ·) := by
    funext t
    simp only [uEos, eosU, Option.map_map]
    rfl
  rw [e1]
  refine HasDerivO.congr_deriv h2 ?_
  simp only [uEos, cond_sum, z]
  have z2 : n c0 s0 * (1 / (mult0 : ℝ)) = n c0 s0 / mult0 := by ring
  simp only [eosU, z2]
  obtain ⟨F, hF, -⟩ := hr
  have hs := hF.self_of_nhds
  obtain ⟨v, hv, -⟩ := Option.map_eq_some_iff.1 hs
  rw [hv]
  simp only [Option.map_some, Option.getD_some]
  ring

variable (u : UTerm ns) (mult : (c : Fin C) → Fin (ns c) → Nat)

theorem uniform_deriv (Nmol d : Fin C → ℝ) (h : UGrad u (siteN mult Nmol)) :
    ∃ a mu, uniformEx u mult Nmol = some (a, mu) ∧ HasDerivO (fun t => u.E (siteN mult fun c => Nmol c + t * d c)) (∑ c, mu c * d c) 0 := by
  obtain ⟨a, ha⟩ := ugrad_value h
  refine ⟨a, _, by unfold uniformEx; rw [ha]; rfl, ?_⟩
  have := h fun c i => d c * mult c i
  have e : (fun t : ℝ => u.E fun c i => siteN mult Nmol c i + t * (d c * mult c i)) = fun t => u.E (siteN mult fun c => Nmol c + t * d c) := by
    funext t; congr 1; funext c i; simp only [siteN]; ring
  rw [e] at this
  refine HasDerivO.congr_deriv this ?_
  refine Finset.sum_congr rfl fun c _ => ?_
  rw [Finset.sum_mul]
  exact Finset.sum_congr rfl fun i _ => by ring

theorem portions_sum (Nbulk : Fin C → ℝ) (h : 0 < ∑ c, Nbulk c) (Ntot : ℝ) : ∑ c, portions Nbulk Ntot c = Ntot := by
  unfold portions
  rw [← Finset.mul_sum]
  field_simp

theorem pressure_deriv (T : ℝ) (Nmol : Fin C → ℝ) (hN : ∀ c, 0 < Nmol c) (V : ℝ) (hV : 0 < V) (h : UGrad u (siteN mult Nmol)) :
    ∃ a mu, uniformEx u mult Nmol = some (a, mu) ∧ HasDerivO (helmholtz u mult T fun c => V * Nmol c) (-((∑ c, Nmol c) * T - a + ∑ c, Nmol c * mu c)) V := by
  obtain ⟨a, mu, e, hd⟩ := uniform_deriv u mult Nmol Nmol h
  refine ⟨a, mu, e, ?_⟩
  have hs : HasDerivAt (fun v : ℝ => V / v - 1) (-(1 / V)) V := by
    have := ((hasDerivAt_inv hV.ne').const_mul V).sub_const 1
    refine (this.congr_deriv ?_)
    field_simp
  have z : V / V - 1 = 0 := by field_simp; ring
  have h1 := HasDerivO.comp (c := fun v : ℝ => V / v - 1) (t := V) (by rw [z]; exact hd) hs
  have h2 := h1.mulFun (hasDerivAt_id V)
  have hlog : ∀ c, HasDerivAt (fun v => T * (V * Nmol c) * (Real.log (V * Nmol c / v) - 1)) (-(T * Nmol c)) V := by
    intro c
    have hp : V * Nmol c / V ≠ 0 := (div_pos (mul_pos hV (hN c)) hV).ne'
    have h3 : HasDerivAt (fun v => V * Nmol c / v) (V * Nmol c * (-(V ^ 2)⁻¹)) V := by
      simpa [div_eq_mul_inv] using (hasDerivAt_inv hV.ne').const_mul (V * Nmol c)
    have := ((h3.log hp).sub_const 1).const_mul (T * (V * Nmol c))
    refine this.congr_deriv ?_
    have := (hN c).ne'
    field_simp
  have hsum : HasDerivAt (fun v => ∑ c, T * (V * Nmol c) * (Real.log (V * Nmol c / v) - 1)) (∑ c, -(T * Nmol c)) V := HasDerivAt.fun_sum fun c _ => hlog c
  obtain ⟨F, hF, hFd⟩ := h2
  refine ⟨fun v => F v + ∑ c, T * (V * Nmol c) * (Real.log (V * Nmol c / v) - 1), ?_, (hFd.add hsum).congr_deriv ?_⟩
  · filter_upwards [hF, eventually_ne_nhds hV.ne'] with v hv hv0
    unfold helmholtz
    have es : (fun c (i : Fin (ns c)) => V * Nmol c / v * (mult c i : ℝ)) = siteN mult fun c => Nmol c + (V / v - 1) * Nmol c := by
      funext c i; simp only [siteN]; field_simp; ring
    rw [es]
    obtain ⟨y, hy, hy'⟩ := Option.map_eq_some_iff.1 hv
    rw [hy, Option.map_some, ← hy']
    rfl
  · have ea : (u.E (siteN mult fun c => Nmol c + (V / V - 1) * Nmol c)).getD 0 = a := by
      rw [z]
      simp only [zero_mul, add_zero]
      unfold uniformEx at e
      obtain ⟨x, hx, he⟩ := Option.map_eq_some_iff.1 e
      rw [hx, Option.getD_some]
      exact congrArg Prod.fst he
    rw [ea]
    have es : ∑ c, mu c * Nmol c = ∑ c, Nmol c * mu c := Finset.sum_congr rfl fun c _ => mul_comm _ _
    rw [es, Finset.sum_neg_distrib, ← Finset.mul_sum]
    simp only [id_eq]
    field_simp
    ring

end
end
end Jdftx.Fluid
