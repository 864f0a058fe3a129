import Verif.Spec.Smear
import Verif.Lemmas.Smear

/-!
# Search for the chemical potential and for the magnetic field (C43)
-/
namespace Jdftx.Smear
noncomputable section
open Filter Topology

theorem count_band (f : ℝ → ℝ) (w s : ℝ) (l : List ℝ) : ∀ a : ℝ × ℝ,
    l.foldl (fun t e => (t.1 + w * f e, t.2 + s * (w * f e))) a = (a.1 + w * (l.map f).sum, a.2 + s * (w * (l.map f).sum)) := by
  induction l with
  | nil => intro a; simp
  | cons e l ih =>
    intro a
    rw [List.foldl_cons, ih, List.map_cons, List.sum_cons]
    ext <;> simp only <;> ring

theorem count_eq (k : Kind) (σ : ℝ) (l : List Q) (mu B : ℝ) : count (smear k σ) l mu B = (electrons k σ l B mu, magnetization k σ l B mu) := by
  have key : ∀ (l : List Q) (a : ℝ × ℝ), l.foldl (fun s q => q.eps.foldl (fun s e =>
      let wf := q.weight * smear k σ (muEff mu B q) e
      (s.1 + wf, s.2 + q.spin * wf)) s) a = (a.1 + electrons k σ l B mu, a.2 + magnetization k σ l B mu) := by
    intro l
    induction l with
    | nil => intro a; simp [electrons, magnetization]
    | cons q l ih =>
      intro a
      rw [List.foldl_cons, ih]
      simp only
      rw [count_band (fun e => smear k σ (muEff mu B q) e)]
      unfold electrons magnetization muEff
      simp only [List.map_cons, List.sum_cons]
      ext <;> simp only <;> ring
  unfold count
  rw [key]; simp

theorem sum_tendsto {α : Type} (l : List α) (F : α → ℝ → ℝ) (c : α → ℝ) (fl : Filter ℝ) (h : ∀ a ∈ l, Tendsto (F a) fl (𝓝 (c a))) :
    Tendsto (fun x => (l.map fun a => F a x).sum) fl (𝓝 (l.map c).sum) := by
  induction l with
  | nil => simpa using tendsto_const_nhds
  | cons a l ih =>
    simp only [List.map_cons, List.sum_cons]
    exact (h a (by simp)).add (ih fun b hb => h b (by simp [hb]))

theorem sum_continuous {α : Type} (l : List α) (F : α → ℝ → ℝ) (h : ∀ a ∈ l, Continuous (F a)) :
    Continuous (fun x => (l.map fun a => F a x).sum) := by
  induction l with
  | nil => simpa using continuous_const
  | cons a l ih =>
    simp only [List.map_cons, List.sum_cons]
    exact (h a (by simp)).add (ih fun b hb => h b (by simp [hb]))

theorem sum_const (c : ℝ) (l : List ℝ) : (l.map fun _ => c).sum = l.length * c := by
  induction l with
  | nil => simp
  | cons a l ih => simp only [List.map_cons, List.sum_cons, ih, List.length_cons]; push_cast; ring

theorem smear_top (k : Kind) (σ e : ℝ) (hσ : 0 < σ) : Tendsto (fun mu => smear k σ mu e) atTop (𝓝 1) := by
  refine (occ_bot k).comp ?_
  unfold xOf
  refine Tendsto.atBot_div_const (by positivity) ?_
  exact tendsto_atBot_add_const_left _ e tendsto_neg_atTop_atBot

theorem smear_bot (k : Kind) (σ e : ℝ) (hσ : 0 < σ) : Tendsto (fun mu => smear k σ mu e) atBot (𝓝 0) := by
  refine (occ_top k).comp ?_
  unfold xOf
  refine Tendsto.atTop_div_const (by positivity) ?_
  exact tendsto_atTop_add_const_left _ e tendsto_neg_atBot_atTop

theorem smear_continuous (k : Kind) (σ e : ℝ) : Continuous (fun mu => smear k σ mu e) := by
  refine (occ_continuous k).comp ?_
  unfold xOf
  fun_prop

theorem crossing (g : ℝ → ℝ) (hg : Continuous g) (lo hi t c : ℝ) (hlt : lo < hi) (h1 : g lo < t + c) (h2 : t - c < g hi) (hc : 0 < c) :
    ∃ x, lo ≤ x ∧ x ≤ hi ∧ |g x - t| < c := by
  by_cases h : t - c < g lo
  · exact ⟨lo, le_rfl, hlt.le, abs_lt.2 ⟨by linarith, by linarith⟩⟩
  · have h := not_lt.1 h
    have hy : min (g hi) t ∈ Set.Icc (g lo) (g hi) := ⟨le_min (by linarith) (by linarith), min_le_left _ _⟩
    obtain ⟨x, hx, hgx⟩ := intermediate_value_Icc hlt.le hg.continuousOn hy
    refine ⟨x, hx.1, hx.2, ?_⟩
    rw [hgx, abs_lt]
    have := lt_min h2 (by linarith : t - c < t)
    constructor
    · linarith
    · linarith [min_le_right (g hi) t]

/-- What a finished search guarantees. -/
theorem search_spec (f : ℝ → Res ℝ) (target σ lo hi : ℝ) (fuel : Nat) (hlt : lo < hi) (r : ℝ × ℝ) (h : search f target σ lo hi fuel = .ok r) :
    ∃ lo' hi', r.1 < r.2 ∧ r.2 - r.1 < searchTol σ lo' hi' ∧
      (∃ v, f r.1 = .ok v ∧ v < target + countTol target) ∧ (∃ v, f r.2 = .ok v ∧ target - countTol target < v) ∧
      (lo' = lo ∨ ∃ x v, f x = .ok v ∧ v ≥ target + countTol target ∧ x < hi ∧ lo' = x - (hi - x)) ∧
      (hi' = hi ∨ ∃ x v, f x = .ok v ∧ v ≤ target - countTol target ∧ lo' < x ∧ hi' = x + (x - lo')) := by
  unfold search at h
  cases h1 : lower f (target + countTol target) hi fuel lo with
  | error e => rw [h1] at h; simp [Bind.bind, Except.bind] at h
  | ok lo' =>
    rw [h1] at h
    simp only [Bind.bind, Except.bind] at h
    have s1 := lower_spec f _ hi lo fuel lo lo' hlt (Or.inl rfl) h1
    cases h2 : upper f (target - countTol target) lo' fuel hi with
    | error e => rw [h2] at h; simp at h
    | ok hi' =>
      rw [h2] at h
      simp only at h
      have s2 := upper_spec f _ lo' hi fuel hi hi' s1.1 (Or.inl rfl) h2
      have s3 := bisect_spec f target _ _ (countTol_pos target) fuel lo' hi' r s2.1 s1.2.1 s2.2.1 h
      refine ⟨lo', hi', s3.1, ?_, s3.2.2.2.2.1, s3.2.2.2.2.2, s1.2.2, s2.2.2⟩
      have := s3.2.1
      unfold absTol relTol at this
      exact this

theorem electrons_top (k : Kind) (σ : ℝ) (hσ : 0 < σ) (l : List Q) (B : ℝ) : Tendsto (electrons k σ l B) atTop (𝓝 (capacity l)) := by
  unfold electrons capacity
  refine sum_tendsto l _ _ _ fun q _ => ?_
  have h := sum_tendsto q.eps (fun e mu => smear k σ (mu + B * q.spin) e) (fun _ => 1) atTop
    fun e _ => (smear_top k σ e hσ).comp (tendsto_atTop_add_const_right _ _ tendsto_id)
  rw [sum_const, mul_one] at h
  exact h.const_mul _

theorem electrons_bot (k : Kind) (σ : ℝ) (hσ : 0 < σ) (l : List Q) (B : ℝ) : Tendsto (electrons k σ l B) atBot (𝓝 0) := by
  have key := sum_tendsto l (fun q mu => q.weight * (q.eps.map fun e => smear k σ (mu + B * q.spin) e).sum) (fun _ => 0) atBot ?_
  · have : ((l.map fun _ => (0 : ℝ)).sum) = 0 := by simp
    rw [this] at key
    exact key
  · intro q _
    have h := sum_tendsto q.eps (fun e mu => smear k σ (mu + B * q.spin) e) (fun _ => 0) atBot
      fun e _ => (smear_bot k σ e hσ).comp (tendsto_atBot_add_const_right _ _ tendsto_id)
    rw [sum_const, mul_zero] at h
    simpa using h.const_mul q.weight

theorem electrons_continuous (k : Kind) (σ : ℝ) (l : List Q) (B : ℝ) : Continuous (electrons k σ l B) := by
  unfold electrons
  refine sum_continuous l _ fun q _ => continuous_const.mul (sum_continuous q.eps _ fun e _ => ?_)
  exact (smear_continuous k σ e).comp (by fun_prop)

/-- In a given magnetic field (zero without spin) the search for the chemical potential finishes for every set of eigenvalues and weights and every
electron number from zero to the capacity, and returns `mu` within the tolerance of a chemical potential with the wanted number of
electrons. The ends `lo`, `hi` of the search interval, which enter the tolerance, are the starting values or at most twice as far
as a value at which the count was still off. -/
theorem C43_mu (k : Kind) (σ : ℝ) (hσ : 0 < σ) (l : List Q) (B Minitial n : ℝ) (h0 : 0 ≤ n) (h1 : n ≤ capacity l) :
    ∃ n0, ∀ fuel ≥ n0, ∃ mu muStar lo hi, findMu (smear k σ) σ l (some B) Minitial n fuel = .ok mu ∧
      |mu - muStar| < searchTol σ lo hi ∧ |electrons k σ l B muStar - n| < max 1e-10 (1e-14 * |n|) ∧
      (lo = -0.1 ∨ ∃ x < 0, lo = 2 * x ∧ n + max 1e-10 (1e-14 * |n|) ≤ electrons k σ l B x) ∧
      (hi = 0 ∨ ∃ x > lo, hi = x + (x - lo) ∧ electrons k σ l B x ≤ n - max 1e-10 (1e-14 * |n|)) := by
  have ht : countTol n = max 1e-10 (1e-14 * |n|) := rfl
  have hpos := countTol_pos n
  have hf : ∀ fuel, (fun mu => (nElectronsCalc (smear k σ) σ l (some B) Minitial fuel mu).map Prod.snd) = fun mu => (.ok (electrons k σ l B mu) : Res ℝ) := by
    intro fuel
    funext mu
    simp only [nElectronsCalc, count_eq]; rfl
  obtain ⟨b, hb⟩ := eventually_atBot.1 ((electrons_bot k σ hσ l B).eventually (gt_mem_nhds (by linarith : 0 < n + countTol n)))
  obtain ⟨b', hb'⟩ := eventually_atTop.1 ((electrons_top k σ hσ l B).eventually (lt_mem_nhds (by linarith : n - countTol n < capacity l)))
  obtain ⟨n0, hn0⟩ := search_term (electrons k σ l B) n σ (-0.1) 0 b b' hσ (by norm_num) hb hb'
  refine ⟨n0, fun fuel hfuel => ?_⟩
  obtain ⟨r, hr⟩ := hn0 fuel hfuel
  obtain ⟨lo, hi, s1, s2, ⟨v1, e1, s3⟩, ⟨v2, e2, s4⟩, s5, s6⟩ := search_spec _ _ _ _ _ _ (by norm_num) r hr
  have e1 := Except.ok.inj e1
  have e2 := Except.ok.inj e2
  rw [← e1] at s3
  rw [← e2] at s4
  obtain ⟨x, hx1, hx2, hx3⟩ := crossing _ (electrons_continuous k σ l B) r.1 r.2 n _ s1 s3 s4 hpos
  refine ⟨0.5 * (r.1 + r.2), x, lo, hi, ?_, ?_, hx3, ?_, ?_⟩
  · unfold findMu
    rw [hf, hr]; rfl
  · rw [abs_lt]; constructor <;> linarith
  · rcases s5 with h | ⟨y, v, hv, hv', hy, he⟩
    · exact Or.inl h
    · right
      have hv := Except.ok.inj hv
      refine ⟨y, hy, by linarith, ?_⟩
      rw [hv, ← ht]; exact hv'
  · rcases s6 with h | ⟨y, v, hv, hv', hy, he⟩
    · exact Or.inl h
    · right
      have hv := Except.ok.inj hv
      refine ⟨y, hy, he, ?_⟩
      rw [hv, ← ht]; exact hv'

/-- Two bands at -1 and 1 in each of two spin channels hold four electrons. -/
example : (0 : ℝ) ≤ 1.5 ∧ (1.5 : ℝ) ≤ capacity [⟨1, 1, [-1, 1]⟩, ⟨1, -1, [-1, 1]⟩] := by
  constructor <;> norm_num [capacity]

theorem spin_top (k : Kind) (σ e s mu : ℝ) (hσ : 0 < σ) : Tendsto (fun B => s * smear k σ (mu + B * s) e) atTop (𝓝 (if 0 < s then s else 0)) := by
  rcases lt_trichotomy s 0 with h | h | h
  · rw [if_neg (by linarith)]
    have : Tendsto (fun B : ℝ => mu + B * s) atTop atBot := tendsto_atBot_add_const_left _ _ (tendsto_id.atTop_mul_const_of_neg h)
    simpa using ((smear_bot k σ e hσ).comp this).const_mul s
  · subst h; simp
  · rw [if_pos h]
    have : Tendsto (fun B : ℝ => mu + B * s) atTop atTop := tendsto_atTop_add_const_left _ _ (tendsto_id.atTop_mul_const h)
    simpa using ((smear_top k σ e hσ).comp this).const_mul s

theorem spin_bot (k : Kind) (σ e s mu : ℝ) (hσ : 0 < σ) : Tendsto (fun B => s * smear k σ (mu + B * s) e) atBot (𝓝 (if s < 0 then s else 0)) := by
  rcases lt_trichotomy s 0 with h | h | h
  · rw [if_pos h]
    have : Tendsto (fun B : ℝ => mu + B * s) atBot atTop := tendsto_atTop_add_const_left _ _ (tendsto_id.atBot_mul_const_of_neg h)
    simpa using ((smear_top k σ e hσ).comp this).const_mul s
  · subst h; simp
  · rw [if_neg (by linarith)]
    have : Tendsto (fun B : ℝ => mu + B * s) atBot atBot := tendsto_atBot_add_const_left _ _ (tendsto_id.atBot_mul_const h)
    simpa using ((smear_bot k σ e hσ).comp this).const_mul s

theorem mag_eq (k : Kind) (σ : ℝ) (l : List Q) (B mu : ℝ) :
    magnetization k σ l B mu = (l.map fun q => q.weight * (q.eps.map fun e => q.spin * smear k σ (mu + B * q.spin) e).sum).sum := by
  unfold magnetization
  congr 1
  apply List.map_congr_left
  intro q _
  rw [List.sum_map_mul_left]; ring

theorem mag_top (k : Kind) (σ : ℝ) (hσ : 0 < σ) (l : List Q) (mu : ℝ) : Tendsto (fun B => magnetization k σ l B mu) atTop (𝓝 (capUp l)) := by
  simp only [mag_eq]
  have e : capUp l = (l.map fun q => q.weight * ((q.eps.length : ℝ) * if 0 < q.spin then q.spin else 0)).sum := by
    unfold capUp
    congr 1
    apply List.map_congr_left
    intro q _
    split <;> ring
  rw [e]
  refine sum_tendsto l _ _ _ fun q _ => ?_
  have h := sum_tendsto q.eps (fun e B => q.spin * smear k σ (mu + B * q.spin) e) (fun _ => if 0 < q.spin then q.spin else 0) atTop
    fun e _ => spin_top k σ e q.spin mu hσ
  rw [sum_const] at h
  exact h.const_mul _

theorem mag_bot (k : Kind) (σ : ℝ) (hσ : 0 < σ) (l : List Q) (mu : ℝ) : Tendsto (fun B => magnetization k σ l B mu) atBot (𝓝 (capDown l)) := by
  simp only [mag_eq]
  have e : capDown l = (l.map fun q => q.weight * ((q.eps.length : ℝ) * if q.spin < 0 then q.spin else 0)).sum := by
    unfold capDown
    congr 1
    apply List.map_congr_left
    intro q _
    split <;> ring
  rw [e]
  refine sum_tendsto l _ _ _ fun q _ => ?_
  have h := sum_tendsto q.eps (fun e B => q.spin * smear k σ (mu + B * q.spin) e) (fun _ => if q.spin < 0 then q.spin else 0) atBot
    fun e _ => spin_bot k σ e q.spin mu hσ
  rw [sum_const] at h
  exact h.const_mul _

theorem mag_continuous (k : Kind) (σ : ℝ) (l : List Q) (mu : ℝ) : Continuous (fun B => magnetization k σ l B mu) := by
  unfold magnetization
  refine sum_continuous l _ fun q _ => continuous_const.mul (continuous_const.mul (sum_continuous q.eps _ fun e _ => ?_))
  exact (smear_continuous k σ e).comp (by fun_prop)

/-- With fixed magnetization, the search for the field at a given chemical potential finishes for every magnetization the bands can carry, and
returns a field within the tolerance of one with that magnetization, with the electron number in the returned field. -/
theorem C43_field (k : Kind) (σ : ℝ) (hσ : 0 < σ) (l : List Q) (Minitial mu : ℝ) (h0 : capDown l ≤ Minitial) (h1 : Minitial ≤ capUp l) :
    ∃ n0, ∀ fuel ≥ n0, ∃ B BStar lo hi, nElectronsCalc (smear k σ) σ l none Minitial fuel mu = .ok (B, electrons k σ l B mu) ∧
      |B - BStar| < searchTol σ lo hi ∧ |magnetization k σ l BStar mu - Minitial| < max 1e-10 (1e-14 * |Minitial|) ∧
      (lo = -0.1 ∨ ∃ x < 0.1, lo = x - (0.1 - x) ∧ Minitial + max 1e-10 (1e-14 * |Minitial|) ≤ magnetization k σ l x mu) ∧
      (hi = 0.1 ∨ ∃ x > lo, hi = x + (x - lo) ∧ magnetization k σ l x mu ≤ Minitial - max 1e-10 (1e-14 * |Minitial|)) := by
  have ht : countTol Minitial = max 1e-10 (1e-14 * |Minitial|) := rfl
  have hpos := countTol_pos Minitial
  obtain ⟨b, hb⟩ := eventually_atBot.1 ((mag_bot k σ hσ l mu).eventually (gt_mem_nhds (by linarith : capDown l < Minitial + countTol Minitial)))
  obtain ⟨b', hb'⟩ := eventually_atTop.1 ((mag_top k σ hσ l mu).eventually (lt_mem_nhds (by linarith : Minitial - countTol Minitial < capUp l)))
  obtain ⟨n0, hn0⟩ := search_term (fun B => magnetization k σ l B mu) Minitial σ (-0.1) 0.1 b b' hσ (by norm_num) hb hb'
  refine ⟨n0, fun fuel hfuel => ?_⟩
  obtain ⟨r, hr⟩ := hn0 fuel hfuel
  obtain ⟨lo, hi, s1, s2, ⟨v1, e1, s3⟩, ⟨v2, e2, s4⟩, s5, s6⟩ := search_spec _ _ _ _ _ _ (by norm_num) r hr
  have e1 := Except.ok.inj e1
  have e2 := Except.ok.inj e2
  rw [← e1] at s3
  rw [← e2] at s4
  obtain ⟨x, hx1, hx2, hx3⟩ := crossing _ (mag_continuous k σ l mu) r.1 r.2 Minitial _ s1 s3 s4 hpos
  refine ⟨0.5 * (r.1 + r.2), x, lo, hi, ?_, ?_, hx3, ?_, ?_⟩
  · unfold nElectronsCalc
    simp only [count_eq]
    rw [hr]; rfl
  · rw [abs_lt]; constructor <;> linarith
  · rcases s5 with h | ⟨y, v, hv, hv', hy, he⟩
    · exact Or.inl h
    · right
      have hv := Except.ok.inj hv
      refine ⟨y, hy, he, ?_⟩
      rw [← ht]; rw [← hv] at hv'; exact hv'
  · rcases s6 with h | ⟨y, v, hv, hv', hy, he⟩
    · exact Or.inl h
    · right
      have hv := Except.ok.inj hv
      refine ⟨y, hy, he, ?_⟩
      rw [← ht]; rw [← hv] at hv'; exact hv'

example : capDown [⟨1, 1, [-1, 1]⟩, ⟨1, -1, [-1, 1]⟩] ≤ 1 ∧ (1 : ℝ) ≤ capUp [⟨1, 1, [-1, 1]⟩, ⟨1, -1, [-1, 1]⟩] := by
  constructor <;> norm_num [capDown, capUp]

/-- With fixed magnetization, a chemical potential that is returned lies inside an interval narrower than the tolerance at whose ends the electron
number (each in its own field) is not above, respectively not below, the wanted one. Missing: that this outer search finishes. -/
theorem C43_nested_partial (k : Kind) (σ : ℝ) (l : List Q) (Minitial n mu : ℝ) (fuel : Nat)
    (h : findMu (smear k σ) σ l none Minitial n fuel = .ok mu) :
    ∃ a b lo hi Ba Bb, a < mu ∧ mu < b ∧ b - a < searchTol σ lo hi ∧
      nElectronsCalc (smear k σ) σ l none Minitial fuel a = .ok (Ba, electrons k σ l Ba a) ∧ electrons k σ l Ba a < n + max 1e-10 (1e-14 * |n|) ∧
      nElectronsCalc (smear k σ) σ l none Minitial fuel b = .ok (Bb, electrons k σ l Bb b) ∧ n - max 1e-10 (1e-14 * |n|) < electrons k σ l Bb b := by
  unfold findMu at h
  cases hr : search (fun mu => (nElectronsCalc (smear k σ) σ l none Minitial fuel mu).map Prod.snd) n σ (-0.1) 0 fuel with
  | error e => rw [hr] at h; simp [Bind.bind, Except.bind] at h
  | ok r =>
    rw [hr] at h
    have h : 0.5 * (r.1 + r.2) = mu := Except.ok.inj h
    have key : ∀ x v, (nElectronsCalc (smear k σ) σ l none Minitial fuel x).map Prod.snd = .ok v →
        ∃ B, nElectronsCalc (smear k σ) σ l none Minitial fuel x = .ok (B, electrons k σ l B x) ∧ v = electrons k σ l B x := by
      intro x v hx
      unfold nElectronsCalc at hx ⊢
      simp only [count_eq] at hx ⊢
      cases hs : search (fun B => .ok (magnetization k σ l B x)) Minitial σ (-0.1) 0.1 fuel with
      | error e => rw [hs] at hx; simp [Bind.bind, Except.bind, Except.map] at hx
      | ok s =>
        rw [hs] at hx
        exact ⟨0.5 * (s.1 + s.2), rfl, (Except.ok.inj hx).symm⟩
    obtain ⟨lo, hi, s1, s2, ⟨v1, e1, s3⟩, ⟨v2, e2, s4⟩, _, _⟩ := search_spec _ _ _ _ _ _ (by norm_num) r hr
    obtain ⟨Ba, a1, rfl⟩ := key _ _ e1
    obtain ⟨Bb, b1, rfl⟩ := key _ _ e2
    exact ⟨r.1, r.2, lo, hi, Ba, Bb, by linarith, by linarith, s2, a1, s3, b1, s4⟩

end
end Jdftx.Smear
