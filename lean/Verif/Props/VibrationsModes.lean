import Verif.Props.Vibrations
import Verif.Lemmas.VibrationsSplit
import Mathlib.Analysis.SpecialFunctions.Log.Deriv
import Mathlib.Analysis.SpecialFunctions.ExpDeriv
import Mathlib.Analysis.SpecialFunctions.Complex.Arg
import Mathlib.Data.Finset.Max

/-!
# C105: vibrations (modes)
-/
namespace Jdftx.Vib
noncomputable section
open M3 Real

variable {N ns : ℕ}

/-- **C105 (projection).** Whatever is projected out, by the inverse square root of the overlap, has no force after the projection, and a force matrix in which it had none does not change. -/
theorem C105_projection {m c : ℕ} (K : Matrix (Fin m) (Fin m) ℝ) (p : Matrix (Fin m) (Fin c) ℝ) (W : Matrix (Fin c) (Fin c) ℝ) (hW : W.transpose = W) (h1 : W * (p.transpose * p) * W = 1) :
    project K p W * p = 0 ∧ p.transpose * project K p W = 0 ∧ (K * p = 0 → p.transpose * K = 0 → project K p W = K) := by
  have hQ : (p * W).transpose * (p * W) = 1 := by
    rw [Matrix.transpose_mul, hW]
    calc W * p.transpose * (p * W) = W * (p.transpose * p) * W := by simp only [Matrix.mul_assoc]
      _ = 1 := h1
  have hW2 : W * ((p.transpose * p) * W) = 1 := by rw [← Matrix.mul_assoc]; exact h1
  have h2 : (1 - p * W * (p * W).transpose) * p = 0 := by
    have h3 : (1 - p * W * (p * W).transpose) * (p * W) = 0 := by
      rw [Matrix.sub_mul, Matrix.one_mul, Matrix.mul_assoc (p * W), hQ, Matrix.mul_one, sub_self]
    calc (1 - p * W * (p * W).transpose) * p = (1 - p * W * (p * W).transpose) * (p * (W * ((p.transpose * p) * W))) := by rw [hW2, Matrix.mul_one]
      _ = (1 - p * W * (p * W).transpose) * (p * W) * ((p.transpose * p) * W) := by simp only [Matrix.mul_assoc]
      _ = 0 := by rw [h3, Matrix.zero_mul]
  have h4 : p.transpose * (1 - p * W * (p * W).transpose) = 0 := by
    have := congrArg Matrix.transpose h2
    rw [Matrix.transpose_mul, Matrix.transpose_sub, Matrix.transpose_mul, Matrix.transpose_transpose, Matrix.transpose_one, Matrix.transpose_zero] at this
    exact this
  refine ⟨?_, ?_, ?_⟩
  · unfold project
    rw [Matrix.mul_assoc, h2, Matrix.mul_zero]
  · unfold project
    rw [← Matrix.mul_assoc, ← Matrix.mul_assoc, h4, Matrix.zero_mul, Matrix.zero_mul]
  · intro hK hK'
    unfold project
    have e1 : (1 - p * W * (p * W).transpose) * K = K := by
      rw [Matrix.sub_mul, Matrix.one_mul, Matrix.transpose_mul]
      rw [show p * W * (W.transpose * p.transpose) * K = p * W * W.transpose * (p.transpose * K) by simp only [Matrix.mul_assoc], hK', Matrix.mul_zero, sub_zero]
    rw [e1, Matrix.mul_sub, Matrix.mul_one]
    rw [show K * (p * W * (p * W).transpose) = K * p * (W * (p * W).transpose) by simp only [Matrix.mul_assoc], hK, Matrix.zero_mul, sub_zero]

example : ∃ (p : Matrix (Fin 2) (Fin 1) ℝ) (W : Matrix (Fin 1) (Fin 1) ℝ), W.transpose = W ∧ W * (p.transpose * p) * W = 1 :=
  ⟨Matrix.of fun _ _ => 1, Matrix.of fun _ _ => 1 / sqrt 2, rfl, by
    ext i j
    have : (2 : ℝ) ≠ 0 := two_ne_zero
    fin_cases i; fin_cases j
    simp [Matrix.mul_apply]
    rw [mul_right_comm, ← mul_inv, Real.mul_self_sqrt (by norm_num)]
    norm_num⟩

/-- **C105 (normal modes).** For masses that are not zero: an eigenvector of the frequency matrix, divided by the roots of the masses, is a motion in which the force of each degree of freedom
is the eigenvalue times mass times displacement. -/
theorem C105_normal_modes {m : ℕ} (mass : Fin m → ℝ) (hm : ∀ i, 0 < mass i) (K : Matrix (Fin m) (Fin m) ℝ) (v : Fin m → ℝ) (lam : ℝ) (h : (omegaSq mass K).mulVec v = lam • v) (i : Fin m) :
    K.mulVec (fun j => v j / sqrt (mass j)) i = lam * mass i * (v i / sqrt (mass i)) := by
  have hi := congrFun h i
  have hs : sqrt (mass i) ≠ 0 := (sqrt_pos.2 (hm i)).ne'
  unfold omegaSq at hi
  rw [← Matrix.mulVec_mulVec, ← Matrix.mulVec_mulVec, Matrix.mulVec_diagonal, Pi.smul_apply, smul_eq_mul] at hi
  have e : (Matrix.diagonal fun i => 1 / sqrt (mass i)).mulVec v = fun j => v j / sqrt (mass j) := by
    funext j
    rw [Matrix.mulVec_diagonal]; ring
  rw [e] at hi
  have h2 : K.mulVec (fun j => v j / sqrt (mass j)) i = sqrt (mass i) * (lam * v i) := by
    rw [← hi]; field_simp
  rw [h2]
  have h3 : mass i = sqrt (mass i) * sqrt (mass i) := (mul_self_sqrt (hm i).le).symm
  field_simp
  rw [pow_two, ← h3]
  ring

example : (omegaSq (fun _ : Fin 1 => (4 : ℝ)) (Matrix.of fun _ _ => 8)).mulVec (fun _ => 1) = (2 : ℝ) • fun _ => (1 : ℝ) := by
  have : sqrt (4 : ℝ) = 2 := by rw [show (4 : ℝ) = 2 ^ 2 by norm_num, sqrt_sq two_pos.le]
  funext i
  simp [omegaSq, Matrix.mulVec, Matrix.mul_apply, Matrix.diagonal, this, dotProduct]
  fin_cases i
  norm_num

open Classical in
/-- One threshold of the scan. -/
def scan1 (t : ℝ) : List ℝ → Option ℝ → ℕ → ℕ → ℕ
  | [], _, _, s => s
  | x :: l, prev, i, s => scan1 t l (some x) (i + 1) (if below prev t ∧ x > t then i else s)

theorem scan_eq (w : ℝ) (l : List ℝ) (prev : Option ℝ) (i : ℕ) (s : ℕ × ℕ) : scan w l prev i s = (scan1 (-w) l prev i s.1, scan1 w l prev i s.2) := by
  induction l generalizing prev i s with
  | nil => rfl
  | cons x l ih => simp only [scan, scan1, ih]

theorem scan1_above (t : ℝ) (l : List ℝ) (p : ℝ) (hp : ¬p < t) (hs : (p :: l).Pairwise (· ≤ ·)) (i s : ℕ) : scan1 t l (some p) i s = s := by
  induction l generalizing p i s with
  | nil => rfl
  | cons x l ih =>
    have h := List.pairwise_cons.1 hs
    rw [scan1, if_neg (fun h => hp h.1)]
    exact ih x (fun hx => hp (lt_of_le_of_lt (h.1 x (List.mem_cons_self ..)) hx)) h.2 _ _

theorem scan1_spec (t : ℝ) (l : List ℝ) (prev : Option ℝ) (hp : below prev t) (hs : l.Pairwise (· ≤ ·)) (ht : ∀ x ∈ l, x ≠ t) (i s : ℕ) :
    scan1 t l prev i s = open Classical in if ∃ x ∈ l, t < x then i + number (· < t) l else s := by
  induction l generalizing prev i s with
  | nil => simp [scan1]
  | cons x l ih =>
    have h := List.pairwise_cons.1 hs
    rw [scan1]
    rcases lt_or_gt_of_ne (ht x (List.mem_cons_self ..)) with hx | hx
    · rw [if_neg (fun h => absurd h.2 (not_lt.2 hx.le)), ih (some x) hx h.2 (fun y hy => ht y (List.mem_cons_of_mem _ hy))]
      have e : (∃ y ∈ x :: l, t < y) ↔ ∃ y ∈ l, t < y := by
        constructor
        · rintro ⟨y, hy, h'⟩
          rcases List.mem_cons.1 hy with rfl | hy
          · exact absurd h' (not_lt.2 hx.le)
          · exact ⟨y, hy, h'⟩
        · rintro ⟨y, hy, h'⟩
          exact ⟨y, List.mem_cons_of_mem _ hy, h'⟩
      have e2 : number (· < t) (x :: l) = number (· < t) l + 1 := by simp [number, hx]
      by_cases h' : ∃ y ∈ l, t < y
      · rw [if_pos h', if_pos (e.2 h'), e2]; omega
      · rw [if_neg h', if_neg (fun hh => h' (e.1 hh))]
    · rw [if_pos ⟨hp, hx⟩, scan1_above t l x (not_lt.2 hx.le) hs, if_pos ⟨x, List.mem_cons_self .., hx⟩]
      have : number (· < t) (x :: l) = 0 := by
        unfold number
        rw [List.length_eq_zero_iff, List.filter_eq_nil_iff]
        intro y hy
        rcases List.mem_cons.1 hy with rfl | hy
        · simpa using hx.le
        · simpa using hx.le.trans (h.1 y hy)
      rw [this, add_zero]

/-- **C105 (classification).** For eigenvalues in ascending order, not all imaginary and none exactly at the cutoff: the first index of the modes within the cutoff is the number of eigenvalues
below minus the squared cutoff, the first index of the real modes is the number below the squared cutoff. -/
theorem C105_classify_partial (omegaMin : ℝ) (eigs : List ℝ) (hs : eigs.Pairwise (· ≤ ·)) (hne : ∀ x ∈ eigs, x ≠ -(omegaMin ^ 2) ∧ x ≠ omegaMin ^ 2) (hsome : ∃ x ∈ eigs, -(omegaMin ^ 2) < x) :
    classify omegaMin eigs = (number (· < -(omegaMin ^ 2)) eigs, number (· < omegaMin ^ 2) eigs) := by
  rw [classify, ← pow_two, scan_eq, scan1_spec _ _ none trivial hs (fun x hx => (hne x hx).1), scan1_spec _ _ none trivial hs (fun x hx => (hne x hx).2), if_pos hsome, zero_add, zero_add]
  congr 1
  split
  · rfl
  · rename_i h
    push Not at h
    have : number (· < omegaMin ^ 2) eigs = eigs.length := by
      unfold number
      congr 1
      rw [List.filter_eq_self]
      intro x hx
      simpa using lt_of_le_of_ne (h x hx) (hne x hx).2
    exact this.symm

example : classify 1 [-4, 0, 4] = (1, 2) := by
  rw [C105_classify_partial 1 [-4, 0, 4] (by simp) (by simp; norm_num) ⟨0, by simp, by norm_num⟩]
  simp [number]
  norm_num

/-- **C105 (all imaginary).** If all modes are imaginary, none is reported as such. -/
theorem C105_imaginary_fails (omegaMin : ℝ) (eigs : List ℝ) (h : ∀ x ∈ eigs, x < -(omegaMin ^ 2)) : classify omegaMin eigs = (0, eigs.length) ∧ number (· < -(omegaMin ^ 2)) eigs = eigs.length := by
  have key : ∀ (t : ℝ) (l : List ℝ), (∀ x ∈ l, x < t) → ∀ prev i s, scan1 t l prev i s = s := by
    intro t l hl
    induction l with
    | nil => intros; rfl
    | cons x l ih =>
      intro prev i s
      rw [scan1, if_neg (fun hh => absurd hh.2 (not_lt.2 (hl x (List.mem_cons_self ..)).le))]
      exact ih (fun y hy => hl y (List.mem_cons_of_mem _ hy)) _ _ _
  refine ⟨?_, ?_⟩
  · rw [classify, ← pow_two, scan_eq, key _ _ h, key _ _ fun x hx => lt_of_lt_of_le (h x hx) (by nlinarith [sq_nonneg omegaMin])]
  · unfold number
    congr 1
    rw [List.filter_eq_self]
    intro x hx
    simpa using h x hx

/-- **C105 (cutoff).** With an eigenvalue exactly at the cutoff real modes may be lost: for cutoff zero and squared frequencies -1, 0 and 1 there are no imaginary and no real modes. -/
theorem C105_cutoff_fails : classify 0 [-1, 0, 1] = (0, 3) := by
  simp [classify, scan, below]

theorem exp_lt (x : ℝ) (T : ℝ) (hx : 0 < x) (hT : 0 < T) : exp (-sqrt x / T) < 1 := by
  rw [exp_lt_one_iff, neg_div]
  exact neg_neg_of_pos (div_pos (sqrt_pos.2 hx) hT)

theorem list_sum_deriv {α : Type*} (l : List α) (f : α → ℝ → ℝ) (f' : α → ℝ) (T : ℝ) (h : ∀ a ∈ l, HasDerivAt (f a) (f' a) T) :
    HasDerivAt (fun T => (l.map fun a => f a T).sum) (l.map f').sum T := by
  induction l with
  | nil => simpa using hasDerivAt_const T (0 : ℝ)
  | cons a l ih =>
    simp only [List.map_cons, List.sum_cons]
    exact (h a (List.mem_cons_self ..)).add (ih fun b hb => h b (List.mem_cons_of_mem _ hb))

/-- **C105 (thermodynamics).** For every list of squared frequencies above zero and every temperature: the entropy is minus the derivative of the free energy, it is not negative, and the energy is not
below, the free energy not above, the zero-point energy. -/
theorem C105_thermodynamics (l : List ℝ) (hl : ∀ x ∈ l, 0 < x) (T : ℝ) (hT : 0 < T) :
    HasDerivAt (Avib l) (-(TSvib l T / T)) T ∧ 0 ≤ TSvib l T ∧ ZPE l ≤ Evib l T ∧ Avib l T ≤ ZPE l := by
  have h1 : ∀ x ∈ l, 0 < 1 - exp (-sqrt x / T) := fun x hx => sub_pos.2 (exp_lt x T (hl x hx) hT)
  have hE : ZPE l ≤ Evib l T := by
    refine List.sum_le_sum fun x hx => ?_
    have := div_nonneg (mul_nonneg (sqrt_nonneg x) (exp_pos (-sqrt x / T)).le) (h1 x hx).le
    linarith
  have hA : Avib l T ≤ ZPE l := by
    refine List.sum_le_sum fun x hx => ?_
    have : log (1 - exp (-sqrt x / T)) ≤ 0 := log_nonpos (h1 x hx).le (by linarith [exp_pos (-sqrt x / T)])
    have := mul_nonpos_of_nonneg_of_nonpos hT.le this
    linarith
  refine ⟨?_, by unfold TSvib; linarith, hE, hA⟩
  have hd : ∀ x ∈ l, HasDerivAt (fun T => 0.5 * sqrt x + T * log (1 - exp (-sqrt x / T)))
      (-((sqrt x * exp (-sqrt x / T) / (1 - exp (-sqrt x / T)) - T * log (1 - exp (-sqrt x / T))) / T)) T := by
    intro x hx
    have h2 : HasDerivAt (fun T : ℝ => -sqrt x / T) (sqrt x / T ^ 2) T := by
      have := (hasDerivAt_const T (-sqrt x)).div (hasDerivAt_id T) hT.ne'
      refine this.congr_deriv ?_
      simp
    have h3 := ((h2.exp.const_sub 1).log (h1 x hx).ne')
    have h4 := ((hasDerivAt_id T).mul h3).const_add (0.5 * sqrt x)
    refine h4.congr_deriv ?_
    have := (h1 x hx).ne'
    simp only [id]
    field_simp
    ring
  have := list_sum_deriv l (fun x T => 0.5 * sqrt x + T * log (1 - exp (-sqrt x / T))) _ T hd
  refine this.congr_deriv ?_
  unfold TSvib Evib Avib
  clear this hd hE hA h1 hl
  induction l with
  | nil => simp
  | cons x l ih =>
    simp only [List.map_cons, List.sum_cons, ih]
    ring

example := C105_thermodynamics [1, 2] (by simp) 1 one_pos

/-- **C105 (degeneracies).** For every resolution and every mode: its degenerate group is an interval of modes that contains it, all modes of it have the same group, consecutive ones differ in
frequency by no more than the resolution, and the group does not cross the limits between imaginary, zero and real modes. -/
theorem C105_degeneracy (res : ℝ) (eigs : List ℝ) (iz ir : ℕ) (hz : iz ≤ eigs.length) (hr : ir ≤ eigs.length) (i : ℕ) (hi : i < eigs.length) :
    ∃ s t : ℕ, degeneracy (freqChange res eigs iz ir) i = ((s : WithBot ℕ), (t : WithTop ℕ)) ∧ s ≤ i ∧ i < t ∧ t ≤ eigs.length ∧
      (∀ j, s ≤ j → j < t → degeneracy (freqChange res eigs iz ir) j = ((s : WithBot ℕ), (t : WithTop ℕ))) ∧
      (∀ j, s ≤ j → j + 1 < t → abs (sqrt (abs (eigs.getD (j + 1) 0)) - sqrt (abs (eigs.getD j 0))) ≤ res) ∧ (iz ≤ s ∨ t ≤ iz) ∧ (ir ≤ s ∨ t ≤ ir) := by
  set S := freqChange res eigs iz ir with hS
  have h0 : 0 ∈ S := by rw [hS, freqChange]; simp
  have hn : eigs.length ∈ S := by rw [hS, freqChange]; simp
  have hzS : iz ∈ S := by rw [hS, freqChange]; simp
  have hrS : ir ∈ S := by rw [hS, freqChange]; simp
  have hle : ∀ x ∈ S, x ≤ eigs.length := by
    intro x hx
    rw [hS, freqChange] at hx
    simp only [Finset.mem_union, Finset.mem_filter, Finset.mem_range, Finset.mem_insert, Finset.mem_singleton] at hx
    omega
  obtain ⟨s, hs⟩ := Finset.max_of_mem (Finset.mem_filter.2 ⟨h0, Nat.zero_le i⟩ : 0 ∈ S.filter (· ≤ i))
  obtain ⟨t, ht⟩ := Finset.min_of_mem (Finset.mem_filter.2 ⟨hn, hi⟩ : eigs.length ∈ S.filter (i < ·))
  have hsm := Finset.mem_filter.1 (Finset.mem_of_max hs)
  have htm := Finset.mem_filter.1 (Finset.mem_of_min ht)
  have hempty : ∀ x ∈ S, x ≤ s ∨ t ≤ x := by
    intro x hx
    rcases le_or_gt x i with h | h
    · left; exact Finset.le_max_of_eq (Finset.mem_filter.2 ⟨hx, h⟩) hs
    · right; exact Finset.min_le_of_eq (Finset.mem_filter.2 ⟨hx, h⟩) ht
  refine ⟨s, t, by rw [degeneracy, hs, ht]; rfl, hsm.2, htm.2, hle t htm.1, ?_, ?_, hempty iz hzS, hempty ir hrS⟩
  · intro j hj hj'
    have e1 : S.filter (· ≤ j) = S.filter (· ≤ i) := by
      ext x
      simp only [Finset.mem_filter, and_congr_right_iff]
      intro hx
      have := hempty x hx
      have := hsm.2
      have := htm.2
      omega
    have e2 : S.filter (j < ·) = S.filter (i < ·) := by
      ext x
      simp only [Finset.mem_filter, and_congr_right_iff]
      intro hx
      have := hempty x hx
      have := hsm.2
      have := htm.2
      omega
    rw [degeneracy, e1, e2, hs, ht]
    rfl
  · intro j hj hj'
    by_contra hgt
    have hl := hle t htm.1
    have : j + 1 ∈ S := by
      rw [hS, freqChange]
      refine Finset.mem_union_left _ (Finset.mem_filter.2 ⟨Finset.mem_range.2 (by omega), by omega, ?_⟩)
      rw [Nat.add_sub_cancel]
      exact not_le.1 hgt
    have := hempty _ this
    omega

example := C105_degeneracy 1 [1, 1, 9] 0 3 (by simp) (by simp) 1 (by simp)

theorem tiny_pos : 0 < tiny := inv_pos.2 (pow_pos (by norm_num) _)

theorem tiny_lt : tiny < 1 := inv_lt_one_of_one_lt₀ (one_lt_pow₀ (by norm_num) (by norm_num))

/-- **C105 (phase).** Real data times a phase is recovered by `removePhase`, up to a sign, if some element is not tiny. -/
theorem C105_phase (x : List ℝ) (c : ℂ) (hc : ‖c‖ = 1) (hx : ∃ r ∈ x, tiny < r * r) : ∃ e : ℝ, (e = 1 ∨ e = -1) ∧ removePhase (x.map fun r : ℝ => c * (r : ℂ)) = some (x.map fun r => e * r) := by
  have hsq : ∀ r : ℝ, (c * (r : ℂ)) * (c * (r : ℂ)) = ((r * r : ℝ) : ℂ) * (c * c) := by intro r; push_cast; ring
  have hnorm : ∀ r : ℝ, ‖(c * (r : ℂ)) * (c * (r : ℂ))‖ = r * r := by
    intro r
    rw [norm_mul, norm_mul, hc, one_mul, Complex.norm_real, Real.norm_eq_abs, abs_mul_abs_self]
  set big := x.filter fun r => decide (r * r > tiny) with hbig
  have hfilter : (x.map fun r : ℝ => c * (r : ℂ)).filter (fun z => decide (‖z * z‖ > tiny)) = big.map fun r : ℝ => c * (r : ℂ) := by
    rw [List.filter_map, hbig]
    congr 1
    refine List.filter_congr fun r _ => ?_
    simp only [Function.comp, hnorm]
  have hbne : big ≠ [] := by
    obtain ⟨r, hr, h⟩ := hx
    intro e
    have : r ∈ big := List.mem_filter.2 ⟨hr, by simpa using h⟩
    rw [e] at this
    simp at this
  have hpos : 0 < (big.map fun r => r * r).sum := by
    refine List.sum_pos _ ?_ ?_
    · intro y hy
      obtain ⟨r, hr, rfl⟩ := List.mem_map.1 hy
      have := (List.mem_filter.1 hr).2
      simp only [decide_eq_true_eq] at this
      exact lt_trans tiny_pos this
    · simpa using hbne
  generalize hW : (big.map fun r => r * r).sum = W at hpos
  have hw0 : ((big.map fun r : ℝ => c * (r : ℂ)).map fun z => ‖z * z‖).sum = W := by
    rw [List.map_map, ← hW]
    congr 1
    exact List.map_congr_left fun r _ => hnorm r
  have hr1 : ((big.map fun r : ℝ => c * (r : ℂ)).map fun z => (z * z).re).sum = W * (c * c).re := by
    rw [List.map_map, ← hW, ← List.sum_map_mul_right]
    congr 1
    refine List.map_congr_left fun r _ => ?_
    simp only [Function.comp, hsq, Complex.re_ofReal_mul]
  have hi1 : ((big.map fun r : ℝ => c * (r : ℂ)).map fun z => (z * z).im).sum = W * (c * c).im := by
    rw [List.map_map, ← hW, ← List.sum_map_mul_right]
    congr 1
    refine List.map_congr_left fun r _ => ?_
    simp only [Function.comp, hsq, Complex.im_ofReal_mul]
  have hp : meanPhase (x.map fun r : ℝ => c * (r : ℂ)) = some (0.5 * Complex.arg (c * c)) := by
    unfold meanPhase
    simp only [hfilter, hw0, hr1, hi1]
    rw [if_neg (by rw [List.map_eq_nil_iff]; exact hbne), mul_div_cancel_left₀ _ hpos.ne', mul_div_cancel_left₀ _ hpos.ne']
  set p : ℝ := 0.5 * Complex.arg (c * c) with hpdef
  have hcc : c * c = Complex.exp (p * Complex.I) * Complex.exp (p * Complex.I) := by
    have h := Complex.norm_mul_exp_arg_mul_I (c * c)
    rw [norm_mul, hc, one_mul, Complex.ofReal_one, one_mul] at h
    rw [← Complex.exp_add, ← h]
    congr 1
    rw [hpdef]
    push_cast
    ring
  have hce : c = Complex.exp (p * Complex.I) ∨ c = -Complex.exp (p * Complex.I) := mul_self_eq_mul_self_iff.1 hcc
  have hcis : (⟨cos (-p), sin (-p)⟩ : ℂ) = Complex.exp (-(p * Complex.I)) := by
    rw [show -(p * Complex.I) = ((-p : ℝ) : ℂ) * Complex.I by push_cast; ring, Complex.exp_mul_I, ← Complex.ofReal_cos, ← Complex.ofReal_sin]
    apply Complex.ext <;> simp [Complex.cos_ofReal_re, Complex.sin_ofReal_re, Complex.cos_ofReal_im, Complex.sin_ofReal_im]
  have hone : Complex.exp (p * Complex.I) * Complex.exp (-(p * Complex.I)) = 1 := by rw [← Complex.exp_add, add_neg_cancel, Complex.exp_zero]
  have fin : ∀ e : ℝ, c = (e : ℂ) * Complex.exp (p * Complex.I) → removePhase (x.map fun r : ℝ => c * (r : ℂ)) = some (x.map fun r => e * r) := by
    intro e he
    rw [removePhase, hp, Option.map_some, List.map_map]
    congr 1
    refine List.map_congr_left fun r _ => ?_
    simp only [Function.comp, hcis]
    rw [he, show (e : ℂ) * Complex.exp (p * Complex.I) * (r : ℂ) * Complex.exp (-(p * Complex.I)) = ((e * r : ℝ) : ℂ) * (Complex.exp (p * Complex.I) * Complex.exp (-(p * Complex.I))) by push_cast; ring, hone,
      mul_one, Complex.ofReal_re]
  rcases hce with h | h
  · exact ⟨1, Or.inl rfl, fin 1 (by rw [Complex.ofReal_one, one_mul]; exact h)⟩
  · exact ⟨-1, Or.inr rfl, fin (-1) (by push_cast; rw [neg_one_mul]; exact h)⟩

example := C105_phase [0, 2] Complex.I (by simp) ⟨2, by simp, tiny_lt.trans (by norm_num)⟩

/-- **C105 (printed displacements).** The phase is removed from the first three components only: two atoms that move together along the first axis are printed as if only the first moved,
if the eigenvector has an imaginary phase. -/
theorem C105_phase_fails (rest : List ℂ) : printed 6 ([Complex.I, 0, 0, Complex.I, 0, 0] ++ rest) 0 = .ok (some [1, 0, 0, 0, 0, 0]) := by
  have h : removePhase [Complex.I, 0, 0] = some [1, 0, 0] := by
    have h1 : meanPhase [Complex.I, 0, 0] = some (0.5 * π) := by
      unfold meanPhase
      have : (⟨-1, 0⟩ : ℂ) = -1 := by apply Complex.ext <;> simp
      norm_num [List.filter, this, tiny_lt, tiny_pos.le, not_lt.2 tiny_pos.le]
    have h2 : (0.5 * π : ℝ) = π / 2 := by ring
    rw [removePhase, h1, Option.map_some, h2]
    simp
  simp [printed, h]

/-- **C105 (printed components).** The displacements printed for an eigenvector of at least three components are the first three with their phase removed, followed by the real parts of the others of
the same eigenvector. -/
theorem C105_printed (m : ℕ) (hm : 3 ≤ m) (data : List ℂ) (i : ℕ) (h : (i + 1) * m ≤ data.length) (l : List ℝ) (hl : printed m data i = .ok (some l)) :
    l.length = m ∧ removePhase [data.getD (i * m) 0, data.getD (i * m + 1) 0, data.getD (i * m + 2) 0] = some (l.take 3) ∧ ∀ j, 3 ≤ j → j < m → l.getD j 0 = (data.getD (i * m + j) 0).re := by
  have h' : i * m + m ≤ data.length := by rw [add_mul, one_mul] at h; exact h
  unfold printed at hl
  rw [if_neg (by omega)] at hl
  have e3 : (data.drop (i * m)).take 3 = [data.getD (i * m) 0, data.getD (i * m + 1) 0, data.getD (i * m + 2) 0] := by
    apply List.ext_getElem
    · simp; omega
    · intro k h1 h2
      have hk : k < 3 := by simpa using h2
      rw [List.getElem_take, List.getElem_drop]
      obtain rfl | rfl | rfl : k = 0 ∨ k = 1 ∨ k = 2 := by omega
      all_goals simp only [List.getElem_cons_zero, List.getElem_cons_succ]; rw [List.getD_eq_getElem] <;> rfl
  rw [e3] at hl
  cases hr : removePhase [data.getD (i * m) 0, data.getD (i * m + 1) 0, data.getD (i * m + 2) 0] with
  | none => rw [hr] at hl; simp at hl
  | some p =>
    rw [hr] at hl
    simp only [Option.map_some, Except.ok.injEq, Option.some.injEq] at hl
    have hp : p.length = 3 := by
      unfold removePhase at hr
      cases hq : meanPhase [data.getD (i * m) 0, data.getD (i * m + 1) 0, data.getD (i * m + 2) 0] with
      | none => rw [hq] at hr; simp at hr
      | some q => rw [hq] at hr; simp only [Option.map_some, Option.some.injEq] at hr; rw [← hr]; rfl
    subst hl
    refine ⟨by simp [hp]; omega, ?_, ?_⟩
    · rw [List.take_take, Nat.min_eq_left hm, ← hp, List.take_left]
    · intro j h3 hj
      rw [List.getD_eq_getElem _ _ (by simp [hp]; omega), List.getElem_take, List.getElem_append_right (by omega), List.getD_eq_getElem _ _ (by omega)]
      simp only [List.getElem_map, List.getElem_drop]
      congr 2
      omega

example (rest : List ℂ) := C105_printed 6 (by norm_num) ([Complex.I, 0, 0, Complex.I, 0, 0] ++ rest) 0 (by simp) _ (C105_phase_fails rest)

/-- **C105 (atoms that do not move).** If the first three components are zero the printed displacements are not numbers. -/
theorem C105_still_fails (m : ℕ) (rest : List ℂ) : printed m ([0, 0, 0] ++ rest) 0 = .ok none := by
  have h : removePhase [0, 0, 0] = none := by
    unfold removePhase meanPhase
    norm_num [List.filter, tiny_pos.le, not_lt.2 tiny_pos.le]
  simp [printed, h]

/-- **C105 (few modes).** With one or two modes (one atom on a line or in a plane), memory beyond the eigenvectors is read. -/
theorem C105_few_modes_fails (m : ℕ) (h0 : 0 < m) (h : m < 3) (data : List ℂ) (hd : data.length = m * m) : printed m data (m - 1) = .error .ub := by
  unfold printed
  rw [if_pos]
  rw [hd]
  obtain rfl | rfl : m = 1 ∨ m = 2 := by omega
  · norm_num
  · norm_num

/-- **C105 (molecule across the cell boundary).** Atoms whose true coordinates `y` along a lattice direction lie within half of the cell, stored with any lattice translations: after wrapping at the
split point their differences are those of the true coordinates. -/
theorem C105_unwrap (x y : List ℝ) (hx : x ≠ []) (hi : ∀ j < x.length, ∃ k : ℤ, x.getD j 0 = y.getD j 0 + k)
    (hspan : ∀ i < x.length, ∀ j < x.length, y.getD i 0 - y.getD j 0 < 1 / 2) :
    ∃ split, splitOf x = .ok split ∧ ∀ i < x.length, ∀ j < x.length, wrapAt split (x.getD i 0) - wrapAt split (x.getD j 0) = y.getD i 0 - y.getD j 0 := by
  obtain ⟨c, g, hg, hs, hout⟩ := gap_spec x y hx hi hspan
  refine ⟨frac c, hs, ?_⟩
  obtain ⟨k0, hk0⟩ := frac_int c
  have hin : ∀ i < x.length, frac c - 1 + g / 2 ≤ wrapAt (frac c) (x.getD i 0) ∧ wrapAt (frac c) (x.getD i 0) ≤ frac c - g / 2 := by
    intro i hil
    obtain ⟨h1, h2, k, hk⟩ := wrapAt_spec c (x.getD i 0)
    have hm : x.getD i 0 ∈ x := by rw [List.getD_eq_getElem _ _ hil]; exact List.getElem_mem _
    have ha := hout _ hm (k - k0)
    have hb := hout _ hm (k - k0 + 1)
    push_cast at ha hb
    rw [not_and_or, not_lt, not_lt] at ha hb
    constructor
    · rcases hb with h | h <;> linarith
    · rcases ha with h | h <;> linarith
  intro i hil j hjl
  obtain ⟨-, -, k1, hk1⟩ := wrapAt_spec c (x.getD i 0)
  obtain ⟨-, -, k2, hk2⟩ := wrapAt_spec c (x.getD j 0)
  obtain ⟨k3, hk3⟩ := hi i hil
  obtain ⟨k4, hk4⟩ := hi j hjl
  have hd : wrapAt (frac c) (x.getD i 0) - wrapAt (frac c) (x.getD j 0) = y.getD i 0 - y.getD j 0 + ((k1 + k3 - k2 - k4 : ℤ) : ℝ) := by
    rw [hk1, hk2, hk3, hk4]; push_cast; ring
  have h1 := hin i hil
  have h2 := hin j hjl
  have h3 := hspan i hil j hjl
  have h4 := hspan j hjl i hil
  generalize k1 + k3 - k2 - k4 = n at hd
  have hn1 : (n : ℝ) < 1 := by linarith [h1.1, h1.2, h2.1, h2.2]
  have hn2 : (-1 : ℝ) < n := by linarith [h1.1, h1.2, h2.1, h2.2]
  have hn1 : n < 1 := by exact_mod_cast hn1
  have hn2 : -1 < n := by exact_mod_cast hn2
  have : n = 0 := by omega
  rw [hd, this]; simp

/-- The case of a molecule across the boundary: atoms stored at 0.9 and 0.1. -/
example : ∃ split, splitOf [0.9, 0.1] = .ok split ∧ wrapAt split 0.1 - wrapAt split 0.9 = 0.2 := by
  obtain ⟨s, h, hw⟩ := C105_unwrap [0.9, 0.1] [-0.1, 0.1] (by simp)
    (by
      intro j hj
      obtain rfl | rfl : j = 0 ∨ j = 1 := by simp at hj; omega
      · exact ⟨1, by norm_num⟩
      · exact ⟨0, by norm_num⟩)
    (by
      intro i hi j hj
      obtain rfl | rfl : i = 0 ∨ i = 1 := by simp at hi; omega
      all_goals obtain rfl | rfl : j = 0 ∨ j = 1 := by simp at hj; omega
      all_goals norm_num)
  refine ⟨s, h, ?_⟩
  have := hw 1 (by simp) 0 (by simp)
  simp only [List.getD_cons_succ, List.getD_cons_zero] at this
  rw [this]; norm_num

end
end Jdftx.Vib
