import Verif.Spec.IonicExt
import Verif.Lemmas.Res
import Mathlib.Analysis.SpecialFunctions.ExpDeriv
import Mathlib.Analysis.SpecialFunctions.Sqrt
import Mathlib.Analysis.Calculus.Deriv.Add
import Mathlib.Topology.Order.Basic
import Mathlib.Tactic.FieldSimp
import Mathlib.Tactic.LinearCombination

/-!
# Lemmas for C104
-/
namespace Jdftx.IonExt
noncomputable section
open M3 Real Filter Topology

variable {n : ℕ}

/-! ### Gaussian potentials -/

theorem floor_near (x u : ℝ) (h : ∀ m : ℤ, x ≠ m) : ∀ᶠ t : ℝ in 𝓝 0, ⌊x + t * u⌋ = ⌊x⌋ := by
  have hc : Tendsto (fun t : ℝ => x + t * u) (𝓝 0) (𝓝 x) := by
    have : ContinuousAt (fun t : ℝ => x + t * u) 0 := by fun_prop
    simpa [ContinuousAt] using this
  have h1 : (⌊x⌋ : ℝ) < x := lt_of_le_of_ne (Int.floor_le x) (fun hh => h ⌊x⌋ hh.symm)
  have h2 : x < ⌊x⌋ + 1 := Int.lt_floor_add_one x
  filter_upwards [hc.eventually (Ioo_mem_nhds h1 h2)] with t ht
  exact Int.floor_eq_iff.2 ⟨ht.1.le, ht.2⟩

theorem wrap_near (g : Gauss) (x u : V3 ℝ) (h : Inside fun k => x k - g.center k) : ∀ᶠ t : ℝ in 𝓝 0, wrap g (fun k => x k + t * u k) = fun k => wrap g x k + t * u k := by
  have hk : ∀ k, ∀ᶠ t : ℝ in 𝓝 0, ⌊(0.5 + (x k - g.center k)) + t * u k⌋ = ⌊0.5 + (x k - g.center k)⌋ := fun k => floor_near _ _ fun m hm => h k (m - 1) (by push_cast; linarith)
  filter_upwards [hk 0, hk 1, hk 2] with t h0 h1 h2
  have : ∀ k, ⌊(0.5 + (x k - g.center k)) + t * u k⌋ = ⌊0.5 + (x k - g.center k)⌋ := fun k => by fin_cases k <;> assumption
  funext k
  have e : 0.5 + (x k + t * u k - g.center k) = (0.5 + (x k - g.center k)) + t * u k := by ring
  simp only [wrap, e, this k]
  ring

theorem rSq_deriv (g : Gauss) (r : ℝ → V3 ℝ) (r' : V3 ℝ) (h : ∀ k, HasDerivAt (fun t => r t k) (r' k) 0) : HasDerivAt (fun t => rSq g (r t)) (dot (rSqr g (r 0)) r') 0 := by
  unfold rSq rSqr
  cases g.geometry with
  | spherical =>
    unfold dot
    exact ((((h 0).mul (h 0)).add ((h 1).mul (h 1))).add ((h 2).mul (h 2))).congr_deriv (by ring)
  | cylindrical =>
    refine (((h 0).mul (h 0)).add ((h 1).mul (h 1))).congr_deriv ?_
    simp [dot, vec]; ring
  | planar =>
    refine ((h 2).mul (h 2)).congr_deriv ?_
    simp [dot, vec]; ring

/-- Energy along a curve of Cartesian positions. -/
theorem gauss_curve (g : Gauss) (r : ℝ → V3 ℝ) (r' : V3 ℝ) (h : ∀ k, HasDerivAt (fun t => r t k) (r' k) 0) :
    HasDerivAt (fun t => g.U0 * exp (mhalf g * rSq g (r t))) (-dot (fun k => (-(g.U0 * exp (mhalf g * rSq g (r 0))) * mhalf g) * rSqr g (r 0) k) r') 0 := by
  refine ((((rSq_deriv g r r' h).const_mul (mhalf g)).exp).const_mul g.U0).congr_deriv ?_
  simp only [dot]; ring

theorem mulMV_deriv (R : Mat ℝ) (w u : V3 ℝ) (k : Fin 3) : HasDerivAt (fun t : ℝ => mulMV R (fun k => w k + t * u k) k) (mulMV R u k) 0 := by
  have hk : ∀ j, HasDerivAt (fun t : ℝ => R k j * (w j + t * u j)) (R k j * u j) 0 := fun j => by
    simpa using (((hasDerivAt_id (0 : ℝ)).mul_const (u j)).const_add (w j)).const_mul (R k j)
  simp only [mulMV, zero_add]
  exact ((hk 0).add (hk 1)).add (hk 2)

theorem Ecur_pos_deriv (g : Gauss) (R : Mat ℝ) (x u : V3 ℝ) (h : Inside fun k => x k - g.center k) :
    HasDerivAt (fun t : ℝ => Ecur g R fun k => x k + t * u k) (-∑ k, mulMV (M3.transpose R) (cartForce g R x) k * u k) 0 := by
  have h1 := gauss_curve g (fun t => mulMV R fun k => wrap g x k + t * u k) (mulMV R u) (fun k => mulMV_deriv R (wrap g x) u k)
  have h0 : (fun k => wrap g x k + 0 * u k) = wrap g x := by funext k; ring
  simp only [h0] at h1
  have h2 : HasDerivAt (fun t : ℝ => Ecur g R fun k => x k + t * u k) (-dot (cartForce g R x) (mulMV R u)) 0 := by
    refine h1.congr_of_eventuallyEq ?_
    filter_upwards [wrap_near g x u h] with t ht
    simp only [Ecur, ht]
  refine h2.congr_deriv ?_
  simp only [Fin.sum_univ_three, dot, mulMV, M3.transpose]; ring

theorem Ecur_strain_deriv (g : Gauss) (R e : Mat ℝ) (x : V3 ℝ) :
    HasDerivAt (fun t : ℝ => Ecur g (Ewald.strained R e t) x) (-dot (cartForce g R x) (mulMV e (mulMV R (wrap g x)))) 0 := by
  have hs : ∀ t : ℝ, mulMV (Ewald.strained R e t) (wrap g x) = fun k => mulMV R (wrap g x) k + t * mulMV e (mulMV R (wrap g x)) k := by
    intro t; funext k; simp only [mulMV, Ewald.strained]; ring
  have hk : ∀ k, HasDerivAt (fun t : ℝ => mulMV R (wrap g x) k + t * mulMV e (mulMV R (wrap g x)) k) (mulMV e (mulMV R (wrap g x)) k) 0 := fun k => by
    simpa using ((hasDerivAt_id (0 : ℝ)).mul_const _).const_add (mulMV R (wrap g x) k)
  have h1 := gauss_curve g (fun t k => mulMV R (wrap g x) k + t * mulMV e (mulMV R (wrap g x)) k) _ hk
  simp only [zero_mul, add_zero] at h1
  simp only [Ecur, hs]
  exact h1

/-! ### Metadynamics -/

theorem selectFrom_ok (atoms : Fin n → Atom) (iSp at' : ℕ) (l : List (Fin n)) (i : Fin n) : ∀ c, selectFrom atoms iSp at' l c = .ok i ↔
    ∃ l1 l2, l = l1 ++ i :: l2 ∧ (atoms i).sp = iSp ∧ c + l1.countP (fun j => decide ((atoms j).sp = iSp)) = at' := by
  induction l with
  | nil => intro c; simp [selectFrom]
  | cons j l ih =>
    intro c
    have hsplit : ∀ (P : List (Fin n) → List (Fin n) → Prop), (∃ l1 l2, j :: l = l1 ++ i :: l2 ∧ P l1 l2) ↔ ((j = i ∧ P [] l) ∨ ∃ l1 l2, l = l1 ++ i :: l2 ∧ P (j :: l1) l2) := by
      intro P
      constructor
      · rintro ⟨l1, l2, he, hP⟩
        cases l1 with
        | nil =>
          simp only [List.nil_append, List.cons.injEq] at he
          exact Or.inl ⟨he.1, he.2 ▸ hP⟩
        | cons a l1 =>
          simp only [List.cons_append, List.cons.injEq] at he
          exact Or.inr ⟨l1, l2, he.2, he.1 ▸ hP⟩
      · rintro (⟨rfl, hP⟩ | ⟨l1, l2, rfl, hP⟩)
        · exact ⟨[], l, rfl, hP⟩
        · exact ⟨j :: l1, l2, rfl, hP⟩
    rw [hsplit]
    simp only [selectFrom, List.countP_nil, List.countP_cons, add_zero]
    by_cases hj : (atoms j).sp = iSp
    · simp only [hj, if_true, decide_true]
      by_cases hc : c = at'
      · simp only [hc, if_true, Except.ok.injEq]
        constructor
        · rintro rfl; exact Or.inl ⟨rfl, hj, trivial⟩
        · rintro (⟨h, _⟩ | ⟨l1, l2, _, _, h⟩)
          · exact h
          · omega
      · simp only [hc, if_false, ih]
        constructor
        · rintro ⟨l1, l2, h1, h2, h3⟩; exact Or.inr ⟨l1, l2, h1, h2, by omega⟩
        · rintro (⟨_, _, h⟩ | ⟨l1, l2, h1, h2, h3⟩)
          · exact absurd h (by simp)
          · exact ⟨l1, l2, h1, h2, by omega⟩
    · simp only [hj, if_false, decide_false, ih, Bool.false_eq_true, add_zero]
      constructor
      · rintro ⟨l1, l2, h⟩; exact Or.inr ⟨l1, l2, h⟩
      · rintro (⟨rfl, h, _⟩ | ⟨l1, l2, h⟩)
        · exact absurd h hj
        · exact ⟨l1, l2, h⟩

theorem selectFrom_die (atoms : Fin n → Atom) (iSp at' : ℕ) (l : List (Fin n)) : ∀ c, c ≤ at' → (selectFrom atoms iSp at' l c = .error .die ↔ c + l.countP (fun j => decide ((atoms j).sp = iSp)) ≤ at') := by
  induction l with
  | nil => intro c hc; simpa [selectFrom] using hc
  | cons j l ih =>
    intro c hc
    simp only [selectFrom, List.countP_cons]
    by_cases hj : (atoms j).sp = iSp
    · simp only [hj, if_true, decide_true]
      by_cases he : c = at'
      · simp only [he, if_true, reduceCtorEq, false_iff]; omega
      · simp only [he, if_false]
        rw [ih (c + 1) (by omega)]; omega
    · simp only [hj, if_false, decide_false, Bool.false_eq_true, add_zero]
      exact ih c hc

theorem round_mid (x : ℝ) (m : ℤ) (h1 : (m : ℝ) - 1 / 2 < x) (h2 : x < m + 1 / 2) : Fluid.roundSym x = m := by
  unfold Fluid.roundSym
  split
  · rename_i h
    rw [abs_of_neg h]
    have : ⌊-x + 0.5⌋ = -m := Int.floor_eq_iff.2 ⟨by push_cast; linarith, by push_cast; linarith⟩
    rw [this, neg_neg]
  · rename_i h
    rw [abs_of_nonneg (not_lt.1 h)]
    exact Int.floor_eq_iff.2 ⟨by linarith, by linarith⟩

theorem round_near (x u : ℝ) (h : ∀ m : ℤ, x ≠ m + 1 / 2) : ∀ᶠ t : ℝ in 𝓝 0, Fluid.roundSym (x + t * u) = Fluid.roundSym x := by
  have hc : Tendsto (fun t : ℝ => x + t * u) (𝓝 0) (𝓝 x) := by
    have : ContinuousAt (fun t : ℝ => x + t * u) 0 := by fun_prop
    simpa [ContinuousAt] using this
  set m := ⌊x + 1 / 2⌋ with hm
  have h0 := Int.floor_le (x + 1 / 2)
  have h1 : (m : ℝ) - 1 / 2 < x := lt_of_le_of_ne (by linarith) (fun hh => h (m - 1) (by push_cast; linarith))
  have h2 : x < (m : ℝ) + 1 / 2 := by have := Int.lt_floor_add_one (x + 1 / 2); linarith
  filter_upwards [hc.eventually (Ioo_mem_nhds h1 h2)] with t ht
  rw [round_mid _ m ht.1 ht.2, round_mid _ m h1 h2]

theorem dpos_near (x y u v : V3 ℝ) (h : Inside fun k => x k - y k) : ∀ᶠ t : ℝ in 𝓝 0, dpos (fun k => x k + t * u k) (fun k => y k + t * v k) = fun k => dpos x y k + t * (u k - v k) := by
  have hk : ∀ k, ∀ᶠ t : ℝ in 𝓝 0, Fluid.roundSym ((x k - y k) + t * (u k - v k)) = Fluid.roundSym (x k - y k) := fun k => round_near _ _ (h k)
  filter_upwards [hk 0, hk 1, hk 2] with t h0 h1 h2
  have : ∀ k, Fluid.roundSym ((x k - y k) + t * (u k - v k)) = Fluid.roundSym (x k - y k) := fun k => by fin_cases k <;> assumption
  funext k
  have e : x k + t * u k - (y k + t * v k) = (x k - y k) + t * (u k - v k) := by ring
  simp only [dpos, e, this k]
  ring

theorem metric_dot (R : Mat ℝ) (v : V3 ℝ) : metricLengthSq (mulMM (M3.transpose R) R) v = dot (mulMV R v) (mulMV R v) := by
  simp only [metricLengthSq, mulMM, M3.transpose, dot, mulMV]; ring

/-- Length along a line. -/
theorem length_deriv (R : Mat ℝ) (d u : V3 ℝ) (h : sqrt (metricLengthSq (mulMM (M3.transpose R) R) d) ≠ 0) :
    HasDerivAt (fun t : ℝ => sqrt (metricLengthSq (mulMM (M3.transpose R) R) fun k => d k + t * u k))
      ((∑ k, mulMV (mulMM (M3.transpose R) R) d k * u k) / sqrt (metricLengthSq (mulMM (M3.transpose R) R) d)) 0 := by
  have hne : metricLengthSq (mulMM (M3.transpose R) R) d ≠ 0 := fun hz => h (by rw [hz, sqrt_zero])
  have hk := fun k => mulMV_deriv R d u k
  have h0 : (fun k => d k + (0 : ℝ) * u k) = d := by funext k; ring
  have h1 : HasDerivAt (fun t : ℝ => metricLengthSq (mulMM (M3.transpose R) R) fun k => d k + t * u k) (2 * ∑ k, mulMV (mulMM (M3.transpose R) R) d k * u k) 0 := by
    simp only [metric_dot]
    unfold dot
    refine ((((hk 0).mul (hk 0)).add ((hk 1).mul (hk 1))).add ((hk 2).mul (hk 2))).congr_deriv ?_
    simp only [h0]
    simp only [mulMV, mulMM, M3.transpose, Fin.sum_univ_three]; ring
  have h2 := h1.sqrt (by simpa only [h0] using hne)
  refine h2.congr_deriv ?_
  simp only [h0]
  field_simp

theorem deposit_length (b : Bond) (len : ℝ) (pot : List ℝ) : ∀ r, (deposit b len r pot).length = pot.length := by
  induction pot with
  | nil => intro r; rfl
  | cons v l ih => intro r; simp [deposit, ih]

theorem kernel_eq (b : Bond) (hr : b.resolution ≠ 0) (len r : ℝ) : prefactor b * exp (-0.5 * ((r - len) / b.resolution) ^ 2) = kernel b len r := by
  unfold prefactor kernel
  rw [mul_comm (sqrt _)]
  congr 2
  field_simp
  norm_num
  ring

theorem deposit_get (b : Bond) (hr : b.resolution ≠ 0) (len : ℝ) (pot : List ℝ) : ∀ (r : ℝ) (i : ℕ) (h : i < (deposit b len r pot).length) (h' : i < pot.length),
    (deposit b len r pot)[i] = pot[i] + kernel b len (r + i * b.resolution) := by
  induction pot with
  | nil => intro r i h h'; simp at h'
  | cons v l ih =>
    intro r i h h'
    cases i with
    | zero =>
      simp only [deposit, List.getElem_cons_zero, kernel_eq b hr, Nat.cast_zero, zero_mul, add_zero]
    | succ i =>
      simp only [deposit, List.getElem_cons_succ]
      rw [ih _ _ (by rw [deposit_length]; simpa using h') (by simpa using h')]
      congr 2
      push_cast; ring

theorem pad_length (pot : List ℝ) (m : ℕ) : (pad pot m).length = max pot.length m := by
  unfold pad
  split
  · simp; omega
  · omega

theorem pad_get (pot : List ℝ) (m i : ℕ) (h : i < (pad pot m).length) : (pad pot m)[i] = if h' : i < pot.length then pot[i] else 0 := by
  unfold pad
  split
  · simp only [List.getElem_append]
    split
    · rfl
    · simp
  · rename_i hm
    simp only [pad, hm, if_false] at h
    rw [dif_pos h]

theorem minSize_ok (res b : ℝ) (hr : 0 < res) (hb : 0 ≤ b) : ∃ m : ℕ, minSize res b = .ok m ∧ b / res + 5 ≤ m ∧ (m : ℝ) < b / res + 6 := by
  have h0 : 0 ≤ b / res := div_nonneg hb hr.le
  have h1 : 0 ≤ (⌈b / res⌉ : ℤ) := Int.ceil_nonneg h0
  refine ⟨(⌈b / res⌉ : ℤ).toNat + 5, ?_, ?_, ?_⟩
  · unfold minSize
    rw [if_neg]
    rintro (h | h)
    · exact hr.ne' h
    · omega
  · have h2 := Int.le_ceil (b / res)
    have h3 : (((⌈b / res⌉ : ℤ).toNat : ℕ) : ℝ) = (⌈b / res⌉ : ℤ) := by exact_mod_cast congrArg (Int.cast : ℤ → ℝ) (Int.toNat_of_nonneg h1)
    push_cast
    rw [h3]; linarith
  · have h2 := Int.ceil_lt_add_one (b / res)
    have h3 : (((⌈b / res⌉ : ℤ).toNat : ℕ) : ℝ) = (⌈b / res⌉ : ℤ) := by exact_mod_cast congrArg (Int.cast : ℤ → ℝ) (Int.toNat_of_nonneg h1)
    push_cast
    rw [h3]; linarith

theorem kernel_nonneg (b : Bond) (hr : 0 < b.resolution) (he : 0 ≤ b.energyPerStep) (len r : ℝ) : 0 ≤ kernel b len r := by
  unfold kernel; positivity

theorem kernel_far (b : Bond) (hr : 0 < b.resolution) (he : 0 ≤ b.energyPerStep) (len r : ℝ) (h : len + 5 * b.resolution ≤ r) :
    kernel b len r ≤ b.energyPerStep / (b.resolution * sqrt (2 * π)) * exp (-25 / 2) := by
  unfold kernel
  refine mul_le_mul_of_nonneg_left (exp_le_exp.2 ?_) (by positivity)
  rw [div_le_div_iff₀ (by positivity) (by norm_num)]
  have h1 : 5 * b.resolution ≤ r - len := by linarith
  have h2 : (5 * b.resolution) ^ 2 ≤ (r - len) ^ 2 := pow_le_pow_left₀ (by positivity) h1 2
  nlinarith

/-- Bounds that the updates keep. -/
theorem history_inv (b : Bond) (hr : 0 < b.resolution) (he : 0 ≤ b.energyPerStep) (lens : List ℝ) : ∀ (pot : List ℝ) (S : ℕ → ℝ) (k : ℕ), (∀ len ∈ lens, 0 ≤ len) →
    (∀ i (h : i < pot.length), S i - k * (b.energyPerStep / (b.resolution * sqrt (2 * π)) * exp (-25 / 2)) ≤ pot[i] ∧ pot[i] ≤ S i) →
    (∀ i, pot.length ≤ i → S i ≤ k * (b.energyPerStep / (b.resolution * sqrt (2 * π)) * exp (-25 / 2))) → (∀ i, 0 ≤ S i) →
    ∃ out, history b pot lens = .ok out ∧ pot.length ≤ out.length ∧ (∀ len ∈ lens, len / b.resolution + 5 ≤ out.length) ∧
      ∀ i (h : i < out.length), S i + (lens.map fun len => kernel b len (i * b.resolution)).sum - (k + lens.length : ℕ) * (b.energyPerStep / (b.resolution * sqrt (2 * π)) * exp (-25 / 2)) ≤ out[i]
        ∧ out[i] ≤ S i + (lens.map fun len => kernel b len (i * b.resolution)).sum := by
  set c := b.energyPerStep / (b.resolution * sqrt (2 * π)) * exp (-25 / 2) with hc
  have hc0 : 0 ≤ c := by rw [hc]; positivity
  induction lens with
  | nil =>
    intro pot S k _ h1 _ _
    exact ⟨pot, rfl, le_rfl, by simp, by simpa using h1⟩
  | cons len lens ih =>
    intro pot S k hl h1 h2 h3
    have hlen := hl len (List.mem_cons_self ..)
    obtain ⟨m, hm, hm5, _⟩ := minSize_ok b.resolution len hr hlen
    have hL : (deposit b len 0 (pad pot m)).length = max pot.length m := by rw [deposit_length, pad_length]
    have hget : ∀ i (h : i < (deposit b len 0 (pad pot m)).length), (deposit b len 0 (pad pot m))[i] = (if h' : i < pot.length then pot[i] else 0) + kernel b len (i * b.resolution) := by
      intro i h
      have hp : i < (pad pot m).length := by rwa [deposit_length] at h
      rw [deposit_get b hr.ne' len _ 0 i h hp, pad_get, zero_add]
    obtain ⟨out, ho, hlen1, hcov, hb⟩ := ih (deposit b len 0 (pad pot m)) (fun i => S i + kernel b len (i * b.resolution)) (k + 1) (fun l h => hl l (List.mem_cons_of_mem _ h))
      (by
        intro i h
        rw [hget i h]
        by_cases h' : i < pot.length
        · rw [dif_pos h']
          have := h1 i h'
          push_cast
          constructor <;> nlinarith
        · rw [dif_neg h']
          have := h2 i (not_lt.1 h')
          have := h3 i
          push_cast
          constructor <;> nlinarith)
      (by
        intro i h
        rw [hL] at h
        have h' := h2 i (le_trans (le_max_left _ _) h)
        have hmi : (m : ℝ) ≤ i := by exact_mod_cast le_trans (le_max_right _ _) h
        have hk := kernel_far b hr he len (i * b.resolution) (by
          have : len / b.resolution + 5 ≤ i := le_trans hm5 hmi
          have h5 := mul_le_mul_of_nonneg_right this hr.le
          rw [add_mul, div_mul_cancel₀ _ hr.ne'] at h5
          exact h5)
        push_cast
        linarith)
      (fun i => add_nonneg (h3 i) (kernel_nonneg b hr he _ _))
    refine ⟨out, ?_, ?_, ?_, ?_⟩
    · simp only [history, hm]; exact ho
    · exact le_trans (by rw [hL]; exact le_max_left _ _) hlen1
    · intro l h
      rcases List.mem_cons.1 h with rfl | h
      · refine le_trans hm5 ?_
        have : m ≤ out.length := le_trans (by rw [hL]; exact le_max_right _ _) hlen1
        exact_mod_cast this
      · exact hcov l h
    · intro i h
      have := hb i h
      simp only [List.map_cons, List.sum_cons, List.length_cons]
      push_cast at this ⊢
      constructor <;> linarith [this.1, this.2]

end
end Jdftx.IonExt
