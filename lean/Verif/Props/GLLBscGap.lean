import Verif.Props.GLLBsc
import Verif.Props.DavidsonEdge

/-! # Property C109: potential and gap of the GLLB-sc functional -/
set_option linter.unusedSectionVars false
namespace Jdftx.GLLB
open Matrix Jdftx.ElecMin Jdftx.MatFn
open scoped ComplexOrder ComplexConjugate
noncomputable section

variable {G : Type} [Fintype G] {nb : ℕ}

/-- **C109 (smoothed root).** Without smearing this is the square root of the positive part. With smearing its square differs from the positive part by at most the width divided by twice the root of pi, is never
below it within five widths, and it rises with the energy up to five widths above the edge. -/
theorem C109_root (de width : ℝ) (hw : 0 < width) :
    smoothedSqrt de 0 = Real.sqrt (max 0 de) ∧ 0 ≤ smoothedSqrt de width ∧ |smoothedSqrt de width ^ 2 - max 0 de| ≤ width / (2 * Real.sqrt Real.pi) ∧
      (|de| < 5 * width → max 0 de < smoothedSqrt de width ^ 2) ∧ ∀ de', de < de' → de' < 5 * width → smoothedSqrt de width ≤ smoothedSqrt de' width := by
  have hp : 0 < Real.sqrt Real.pi := Real.sqrt_pos.2 Real.pi_pos
  have hval : ∀ de, smoothedSqrt de width = if de / width < -5 then 0 else if de / width < 5 then Real.sqrt (width * smooth (de / width)) else Real.sqrt de := by
    intro de
    unfold smoothedSqrt
    rw [if_pos hw.ne']
  have hmax : ∀ de : ℝ, max 0 de = width * max 0 (de / width) := by
    intro de
    rw [mul_max_of_nonneg _ _ hw.le, mul_zero, mul_div_cancel₀ _ hw.ne']
  refine ⟨by unfold smoothedSqrt; rw [if_neg (by simp)], ?_, ?_, ?_, ?_⟩
  · rw [hval]
    split
    · exact le_rfl
    · split <;> exact Real.sqrt_nonneg _
  · have hb : 0 ≤ width / (2 * Real.sqrt Real.pi) := by positivity
    rw [hval]
    split
    · rename_i h
      have : de ≤ 0 := by
        rw [div_lt_iff₀ hw] at h
        nlinarith
      rw [max_eq_left this]
      simpa using hb
    · split
      · obtain ⟨g1, g2⟩ := smooth_gap (de / width)
        rw [Real.sq_sqrt (mul_nonneg hw.le (smooth_pos _).le), hmax de, ← mul_sub, abs_of_nonneg (mul_nonneg hw.le (by linarith))]
        calc width * (smooth (de / width) - max 0 (de / width)) ≤ width * (0.5 / Real.sqrt Real.pi) := mul_le_mul_of_nonneg_left g2 hw.le
          _ = width / (2 * Real.sqrt Real.pi) := by field_simp; norm_num
      · rename_i h1 h2
        push Not at h2
        rw [le_div_iff₀ hw] at h2
        have : 0 ≤ de := by nlinarith
        rw [Real.sq_sqrt this, max_eq_right this, sub_self, abs_zero]
        exact hb
  · intro h
    obtain ⟨h1, h2⟩ := abs_lt.1 h
    rw [hval, if_neg (by rw [not_lt, le_div_iff₀ hw]; linarith), if_pos (by rw [div_lt_iff₀ hw]; linarith), Real.sq_sqrt (mul_nonneg hw.le (smooth_pos _).le), hmax de]
    exact mul_lt_mul_of_pos_left (smooth_gap _).1 hw
  · intro de' hlt h5
    rw [hval, hval]
    have hX : de / width < de' / width := div_lt_div_of_pos_right hlt hw
    have h5' : de' / width < 5 := by rw [div_lt_iff₀ hw]; linarith
    by_cases h1 : de / width < -5
    · rw [if_pos h1]
      split
      · exact le_rfl
      · exact Real.sqrt_nonneg _
    · rw [if_neg h1, if_pos (hX.trans h5'), if_neg (by linarith), if_pos h5']
      exact Real.sqrt_le_sqrt (mul_le_mul_of_nonneg_left (smooth_mono hX).le hw.le)

/-- **C109 (smoothed root), fails.** Five widths above the edge the smoothed root drops: a band with higher energy difference gets a smaller contribution. -/
theorem C109_root_fails (width : ℝ) (hw : 0 < width) : ∃ de de', de < de' ∧ smoothedSqrt de' width < smoothedSqrt de width := by
  have h5 : 5 < smooth 5 := by
    have := (smooth_gap 5).1
    rwa [max_eq_right (by norm_num)] at this
  have hc : ContinuousAt smooth 5 := (smooth_deriv 5).continuousAt
  obtain ⟨d, hd, hball⟩ := Metric.eventually_nhds_iff.1 (hc.eventually (lt_mem_nhds h5))
  set X : ℝ := 5 - min (d / 2) 1 with hX
  have hm : 0 < min (d / 2) 1 := lt_min (by linarith) one_pos
  have hm1 : min (d / 2) 1 ≤ 1 := min_le_right _ _
  have hm2 : min (d / 2) 1 ≤ d / 2 := min_le_left _ _
  have hs : 5 < smooth X := by
    apply hball
    rw [Real.dist_eq, hX, abs_lt]
    constructor <;> linarith
  refine ⟨X * width, 5 * width, mul_lt_mul_of_pos_right (by linarith) hw, ?_⟩
  unfold smoothedSqrt
  rw [if_pos hw.ne', if_pos hw.ne']
  simp only [mul_div_cancel_right₀ _ hw.ne']
  rw [if_neg (by norm_num), if_neg (by norm_num), if_neg (by linarith), if_pos (by linarith)]
  apply Real.sqrt_lt_sqrt (by positivity)
  rw [mul_comm]
  exact mul_lt_mul_of_pos_left hs hw

theorem Kx_pos : 0 < Kx := by
  unfold Kx
  have := Real.pi_pos
  positivity

theorem potential_eq (width : ℝ) (eH : Fin 2 → ℝ) (eL : Option (Fin 2 → ℝ)) (procs : List (List (QState G nb))) (s : Fin 2) (r : G) :
    (procs.map fun P => (P.map fun q => if q.spin = s then q.weight * ∑ b, feff width eH eL q b * q.rho b r else 0).sum).sum =
      (procs.flatten.map fun q => if q.spin = s then q.weight * ∑ b, feff width eH eL q b * q.rho b r else 0).sum := by
  rw [List.map_flatten, List.sum_flatten, List.map_map]
  rfl

/-- **C109 (potential).** Where there are electrons, the potential is an average: it lies between the bounds of the terms of the bands of this spin. -/
theorem C109_potential (width : ℝ) (eH : Fin 2 → ℝ) (eL : Option (Fin 2 → ℝ)) (procs : List (List (QState G nb))) (s : Fin 2) (r : G) (hok : ∀ P ∈ procs, ∀ q ∈ P, q.OK) (hn : density procs s r ≠ 0)
    (lo hi : ℝ)
    (hb : ∀ P ∈ procs, ∀ q ∈ P, q.spin = s → ∀ b, lo ≤ term width (eH s) (eL.map (· s)) (q.eig b) ∧ term width (eH s) (eL.map (· s)) (q.eig b) ≤ hi) :
    ∃ v, potential width eH eL (density procs) procs s r = some v ∧ K * lo ≤ v ∧ v ≤ K * hi := by
  rw [show K = Kx from by unfold K Kx; rw [pow_two, mul_assoc]]
  have hok' : ∀ q ∈ procs.flatten, q.OK := fun q hq => by
    obtain ⟨P, hP, hq⟩ := List.mem_flatten.1 hq
    exact hok P hP q hq
  have hdpos : 0 < density procs s r := by
    refine lt_of_le_of_ne ?_ (Ne.symm hn)
    refine List.sum_nonneg fun x hx => ?_
    obtain ⟨q, hq, rfl⟩ := List.mem_map.1 hx
    have := hok' q hq
    split
    · exact mul_nonneg this.weight.le (Finset.sum_nonneg fun b _ => mul_nonneg (this.F0 b) (this.rho b r))
    · exact le_rfl
  have hfe : ∀ q ∈ procs.flatten, q.spin = s → ∀ b, q.F b * (Kx * lo) ≤ feff width eH eL q b ∧ feff width eH eL q b ≤ q.F b * (Kx * hi) := by
    intro q hq hs b
    obtain ⟨P, hP, hqP⟩ := List.mem_flatten.1 hq
    have h1 := hb P hP q hqP hs b
    have h2 := hok' q hq
    have h3 : feff width eH eL q b = q.F b * (Kx * term width (eH s) (eL.map (· s)) (q.eig b)) := by
      unfold feff term
      cases eL <;> simp only [hs, mul_assoc, Option.map]
    rw [h3]
    exact ⟨mul_le_mul_of_nonneg_left (mul_le_mul_of_nonneg_left h1.1 Kx_pos.le) (h2.F0 b), mul_le_mul_of_nonneg_left (mul_le_mul_of_nonneg_left h1.2 Kx_pos.le) (h2.F0 b)⟩
  have hsum : ∀ (L : List (QState G nb)), (∀ q ∈ L, q ∈ procs.flatten) →
      Kx * lo * (L.map fun q => if q.spin = s then q.weight * ∑ b, q.F b * q.rho b r else 0).sum ≤ (L.map fun q => if q.spin = s then q.weight * ∑ b, feff width eH eL q b * q.rho b r else 0).sum ∧
      (L.map fun q => if q.spin = s then q.weight * ∑ b, feff width eH eL q b * q.rho b r else 0).sum ≤ Kx * hi * (L.map fun q => if q.spin = s then q.weight * ∑ b, q.F b * q.rho b r else 0).sum := by
    intro L
    induction L with
    | nil => simp
    | cons q t ih =>
      intro hL
      obtain ⟨i1, i2⟩ := ih fun q hq => hL q (List.mem_cons_of_mem _ hq)
      rw [List.map_cons, List.sum_cons, List.map_cons, List.sum_cons, mul_add, mul_add]
      have hq := hL q (by simp)
      have hqo := hok' q hq
      have h3 : Kx * lo * (if q.spin = s then q.weight * ∑ b, q.F b * q.rho b r else 0) ≤ (if q.spin = s then q.weight * ∑ b, feff width eH eL q b * q.rho b r else 0) ∧
          (if q.spin = s then q.weight * ∑ b, feff width eH eL q b * q.rho b r else 0) ≤ Kx * hi * (if q.spin = s then q.weight * ∑ b, q.F b * q.rho b r else 0) := by
        split
        · rename_i hs
          rw [mul_left_comm, mul_left_comm (Kx * hi), Finset.mul_sum Finset.univ (fun b => q.F b * q.rho b r) (Kx * lo), Finset.mul_sum Finset.univ (fun b => q.F b * q.rho b r) (Kx * hi)]
          refine ⟨mul_le_mul_of_nonneg_left (Finset.sum_le_sum fun b _ => ?_) hqo.weight.le, mul_le_mul_of_nonneg_left (Finset.sum_le_sum fun b _ => ?_) hqo.weight.le⟩
          · rw [← mul_assoc, mul_comm (Kx * lo)]
            exact mul_le_mul_of_nonneg_right (hfe q hq hs b).1 (hqo.rho b r)
          · rw [← mul_assoc, mul_comm (Kx * hi)]
            exact mul_le_mul_of_nonneg_right (hfe q hq hs b).2 (hqo.rho b r)
        · simp
      exact ⟨by linarith [h3.1], by linarith [h3.2]⟩
  obtain ⟨s1, s2⟩ := hsum procs.flatten fun q hq => hq
  refine ⟨_, by unfold potential; rw [if_neg hn], ?_, ?_⟩
  · rw [potential_eq, mul_one_div, le_div_iff₀ hdpos]
    exact s1
  · rw [potential_eq, mul_one_div, div_le_iff₀ hdpos]
    exact s2

theorem sqrt_add_le {a b : ℝ} (ha : 0 ≤ a) (hb : 0 ≤ b) : Real.sqrt (a + b) ≤ Real.sqrt a + Real.sqrt b := by
  rw [Real.sqrt_le_iff]
  have h1 := Real.sqrt_nonneg a
  have h2 := Real.sqrt_nonneg b
  refine ⟨add_nonneg h1 h2, ?_⟩
  nlinarith [Real.sq_sqrt ha, Real.sq_sqrt hb, mul_nonneg h1 h2]

/-- **C109 (discontinuity).** Without smearing the discontinuity potential is not negative, and at most the constant times the root of the gap. -/
theorem C109_discontinuity (eH eL : Fin 2 → ℝ) (procs : List (List (QState G nb))) (s : Fin 2) (r : G) (hok : ∀ P ∈ procs, ∀ q ∈ P, q.OK) (hn : density procs s r ≠ 0) (hle : eH s ≤ eL s) :
    ∃ v, potential 0 eH (some eL) (density procs) procs s r = some v ∧ 0 ≤ v ∧ v ≤ K * Real.sqrt (eL s - eH s) := by
  have h0 : ∀ de, smoothedSqrt de 0 = Real.sqrt (max 0 de) := fun de => by unfold smoothedSqrt; rw [if_neg (by simp)]
  obtain ⟨v, h1, h2, h3⟩ := C109_potential 0 eH (some eL) procs s r hok hn 0 (Real.sqrt (eL s - eH s)) fun P hP q hq hs b => by
    simp only [term, Option.map, h0]
    constructor
    · exact sub_nonneg.2 (Real.sqrt_le_sqrt (max_le_max le_rfl (by linarith)))
    · rw [sub_le_iff_le_add]
      refine le_trans (Real.sqrt_le_sqrt (y := (eL s - eH s) + max 0 (eH s - q.eig b)) ?_) (sqrt_add_le (by linarith) (le_max_left _ _))
      refine max_le (add_nonneg (by linarith) (le_max_left _ _)) ?_
      have := le_max_right 0 (eH s - q.eig b)
      linarith
  exact ⟨v, h1, by simpa using h2, h3⟩

theorem shift_feff (width c : ℝ) (eH : Fin 2 → ℝ) (eL : Option (Fin 2 → ℝ)) (q : QState G nb) (b : Fin nb) :
    feff width (fun s => eH s + c) (eL.map fun l s => l s + c) (q.shift c) b = feff width eH eL q b := by
  unfold feff QState.shift
  cases eL <;> simp

/-- **C109 (zero of energy).** Adding a constant to all energies adds it to the edges and does not change the potential. -/
theorem C109_shift (M width c : ℝ) (procs : List (List (QState G nb))) (s : Fin 2) (hw : width ≠ 0) (homo : Bool) (eH : Fin 2 → ℝ) (eL : Option (Fin 2 → ℝ)) (n : Fin 2 → G → ℝ) (r : G) :
    extremalEnergy M width homo (procs.map fun P => P.map (QState.shift c)) s = (extremalEnergy M width homo procs s).map (· + c) ∧
      potential width (fun s => eH s + c) (eL.map fun l s => l s + c) n (procs.map fun P => P.map (QState.shift c)) s r = potential width eH eL n procs s r := by
  constructor
  · unfold extremalEnergy
    rw [if_pos hw, if_pos hw, smeared_eq homo _ s _ rfl, smeared_eq homo _ s _ rfl]
    have hent : entries (procs.map fun P => P.map (QState.shift c)).flatten = (entries procs.flatten).map fun x => (x.1.shift c, x.2) := by
      rw [← List.map_flatten]
      unfold entries
      rw [List.flatMap_map, List.map_flatMap]
      congr 1
      funext q
      rw [List.map_map]
      rfl
    rw [hent, List.map_map, List.map_map]
    generalize entries procs.flatten = L
    have h1 : (L.map ((fun x : QState G nb × Fin nb => if x.1.spin = s then x.1.weight * bandWeight homo (x.1.F x.2) else 0) ∘ fun x => (x.1.shift c, x.2))).sum =
        (L.map fun x => if x.1.spin = s then x.1.weight * bandWeight homo (x.1.F x.2) else 0).sum := rfl
    have h2 : (L.map ((fun x : QState G nb × Fin nb => (if x.1.spin = s then x.1.weight * bandWeight homo (x.1.F x.2) else 0) * x.1.eig x.2) ∘ fun x => (x.1.shift c, x.2))).sum =
        (L.map fun x => (if x.1.spin = s then x.1.weight * bandWeight homo (x.1.F x.2) else 0) * x.1.eig x.2).sum + c * (L.map fun x => if x.1.spin = s then x.1.weight * bandWeight homo (x.1.F x.2) else 0).sum := by
      clear h1 hent
      induction L with
      | nil => simp
      | cons x t ih =>
        rw [List.map_cons, List.sum_cons, ih, List.map_cons, List.sum_cons, List.map_cons, List.sum_cons]
        simp only [Function.comp_apply, QState.shift]
        ring
    rw [h1, h2]
    generalize (L.map fun x => if x.1.spin = s then x.1.weight * bandWeight homo (x.1.F x.2) else 0).sum = w
    split
    · rfl
    · rename_i h
      rw [Option.map_some]
      congr 1
      field_simp
  · unfold potential
    rw [List.map_map]
    have : (fun P : List (QState G nb) => (P.map fun q => if q.spin = s then q.weight * ∑ b, feff width (fun s => eH s + c) (eL.map fun l s => l s + c) q b * q.rho b r else 0).sum) ∘ (fun P : List (QState G nb) => P.map (QState.shift c)) =
        fun P : List (QState G nb) => (P.map fun q => if q.spin = s then q.weight * ∑ b, feff width eH eL q b * q.rho b r else 0).sum := by
      funext P
      simp only [Function.comp_apply, List.map_map]
      congr 2
      funext q
      simp only [Function.comp_apply, shift_feff]
      rfl
    rw [this]

theorem hPert_psd (dV : ℝ) (hdV : 0 ≤ dV) (V : Fin 2 → G → ℝ) (q : QState G nb) (hV : ∀ r, 0 ≤ V q.spin r) : (hPert dV V q).PosSemidef := by
  classical
  have h : hPert dV V q = (Matrix.of fun r b => q.psi b r : Matrix G (Fin nb) ℂ)ᴴ * diagonal (fun r => ((dV * V q.spin r : ℝ) : ℂ)) * (Matrix.of fun r b => q.psi b r) := by
    ext a b
    rw [Matrix.mul_assoc, mul_apply]
    unfold hPert
    rw [of_apply]
    refine Finset.sum_congr rfl fun r _ => ?_
    rw [diagonal_mul]
    rfl
  rw [h]
  refine PosSemidef.conjTranspose_mul_mul_same ?_ _
  rw [posSemidef_diagonal_iff]
  intro r
  exact_mod_cast mul_nonneg hdV (hV r)

theorem mask_psd (dV : ℝ) (hdV : 0 ≤ dV) (V : Fin 2 → G → ℝ) (q : QState G nb) (hV : ∀ r, 0 ≤ V q.spin r) :
    ((diagonal fun b => ((1 - q.F b : ℝ) : ℂ)) * hPert dV V q * (diagonal fun b => ((1 - q.F b : ℝ) : ℂ)) : ElecMin.Mat nb).PosSemidef := by
  have h := (hPert_psd dV hdV V q hV).conjTranspose_mul_mul_same (diagonal fun b => ((1 - q.F b : ℝ) : ℂ) : ElecMin.Mat nb)
  rw [diagonal_conjTranspose] at h
  have : star (fun b => ((1 - q.F b : ℝ) : ℂ)) = fun b => ((1 - q.F b : ℝ) : ℂ) := by
    funext b
    simp [Complex.conj_ofReal]
  rwa [this] at h

theorem diag_eig (e : Fin nb → ℝ) : Eig (diagonal fun b => (e b : ℂ)) (1 : ElecMin.Mat nb) e := ⟨by simp, by simp, by simp⟩

theorem hQP_herm (dV : ℝ) (hdV : 0 ≤ dV) (V : Fin 2 → G → ℝ) (q : QState G nb) (hV : ∀ r, 0 ≤ V q.spin r) : (hQP dV V q).IsHermitian := by
  unfold hQP
  refine IsHermitian.add ?_ (mask_psd dV hdV V q hV).1
  rw [isHermitian_diagonal_iff]
  intro i
  simp [IsSelfAdjoint, Complex.conj_ofReal]

/-- **C109 (quasiparticles).** When the discontinuity potential is not negative, no quasiparticle energy is below the band energy of the same number. -/
theorem C109_quasiparticles (l : Lapack nb) (hl : SortedLapack l) (dV : ℝ) (hdV : 0 ≤ dV) (V : Fin 2 → G → ℝ) (q : QState G nb) (hV : ∀ r, 0 ≤ V q.spin r) (he : Monotone q.eig) (b : Fin nb) :
    q.eig b ≤ eigsQP l dV V q b := by
  have hH := hQP_herm dV hdV V q hV
  exact weyl (diag_eig q.eig) he (hl.ok.eig _ hH) (hl.sorted _ hH) (mask_psd dV hdV V q hV) b

/-- **C109 (occupied bands).** In an insulator the energies of occupied bands do not change. -/
theorem C109_occupied (l : Lapack nb) (hl : SortedLapack l) (dV : ℝ) (hdV : 0 ≤ dV) (V : Fin 2 → G → ℝ) (q : QState G nb) (hV : ∀ r, 0 ≤ V q.spin r) (hq : q.Insulator) (b : Fin nb) (hb : q.F b = 1) :
    eigsQP l dV V q b = q.eig b := by
  obtain ⟨he, nOcc, hF⟩ := hq
  have hbo : b.val < nOcc := by
    by_contra h
    rw [hF b, if_neg h] at hb
    exact zero_ne_one hb
  refine le_antisymm ?_ (C109_quasiparticles l hl dV hdV V q hV he b)
  have hH := hQP_herm dV hdV V q hV
  have hE := hl.ok.eig _ hH
  have hs := hl.sorted _ hH
  have hk : b.val + 1 ≤ nb := b.2
  let S : Davidson.Sys (Fin nb) (Fin 0) := ⟨hQP dV V q, 1, 0, 0, 1⟩
  have rQ : Davidson.Ritz S (l.eig (hQP dV V q)).1 (l.eig (hQP dV V q)).2 :=
    ⟨by show _ * (1 * _) = 1; rw [Matrix.one_mul, hE.left], by show _ * (hQP dV V q * _) = _; rw [hE.eq, ← Matrix.mul_assoc, hE.left, Matrix.one_mul], hs⟩
  -- the first unit vectors
  let C : Matrix (Fin nb) (Fin (b.val + 1)) ℂ := Matrix.of fun i j => if i = Fin.castLE hk j then 1 else 0
  have hcol : ∀ (A : ElecMin.Mat nb) (i j : Fin (b.val + 1)), (Cᴴ * (A * C)) i j = A (Fin.castLE hk i) (Fin.castLE hk j) := by
    intro A i j
    simp [C, mul_apply, conjTranspose_apply]
  have rC : Davidson.Ritz S C (fun j => q.eig (Fin.castLE hk j)) := by
    refine ⟨?_, ?_, fun i j hij => he (by simpa using hij)⟩
    · ext i j
      rw [hcol]
      show (1 : ElecMin.Mat nb) _ _ = _
      simp only [Matrix.one_apply, Fin.castLE_inj]
    · ext i j
      rw [hcol]
      show hQP dV V q _ _ = _
      have hFi : q.F (Fin.castLE hk i) = 1 := by
        rw [hF, if_pos]
        have := i.2
        simp
        omega
      have hA : ∀ a b, hQP dV V q a b = (diagonal fun b => (q.eig b : ℂ) : ElecMin.Mat nb) a b + ((1 - q.F a : ℝ) : ℂ) * hPert dV V q a b * ((1 - q.F b : ℝ) : ℂ) := by
        intro a b
        show ((diagonal fun b => (q.eig b : ℂ) : ElecMin.Mat nb) + (diagonal fun b => ((1 - q.F b : ℝ) : ℂ)) * hPert dV V q * (diagonal fun b => ((1 - q.F b : ℝ) : ℂ)) : ElecMin.Mat nb) a b = _
        rw [Matrix.add_apply, mul_diagonal, diagonal_mul]
      rw [hA, hFi, diagonal_apply, diagonal_apply]
      simp [Fin.castLE_inj]
  have hw : Davidson.Within C (l.eig (hQP dV V q)).1 := ⟨(l.eig (hQP dV V q)).1ᴴ * C, by rw [← Matrix.mul_assoc, hE.right, Matrix.one_mul]⟩
  exact Davidson.interlace rQ rC hw b.val (by omega) b.2

/-- **C109 (gap).** In an insulator the printed gap is the difference of the band edges plus the printed contribution of the discontinuity, which is not negative. -/
theorem C109_gap (M : ℝ) (l : Lapack nb) (hl : SortedLapack l) (dV : ℝ) (hdV : 0 ≤ dV) (V : Fin 2 → G → ℝ) (procs : List (List (QState G nb))) (s : Fin 2) (hV : ∀ s r, 0 ≤ V s r)
    (hins : ∀ P ∈ procs, ∀ q ∈ P, q.Insulator) (eH : ℝ) (eL : Fin 2 → ℝ) (hH : extremalEnergy M 0 true procs s = some eH) (hL : extremalEnergy M 0 false procs s = some (eL s)) :
    (gap M l dV V eL procs s).1 = (eL s - eH) + (gap M l dV V eL procs s).2 ∧ 0 ≤ (gap M l dV V eL procs s).2 := by
  unfold extremalEnergy at hH hL
  rw [if_neg (by simp), Option.some.injEq] at hH hL
  have hb : ∀ q b, Band procs s q b → q.Insulator := by
    rintro q b ⟨⟨P, hP, hq⟩, -⟩
    exact hins P hP q hq
  have h1 : extremal M true (eigsQP l dV V) procs s = eH := by
    rw [← hH]
    obtain ⟨a1, a2, a3⟩ := extremal_homo M (eigsQP l dV V) procs s
    obtain ⟨b1, b2, b3⟩ := extremal_homo M QState.eig procs s
    have hone : ∀ q b, Band procs s q b → 1 / 2 ≤ q.F b → eigsQP l dV V q b = q.eig b := by
      intro q b hq hF
      refine C109_occupied l hl dV hdV V q (hV _) (hb q b hq) b ?_
      obtain ⟨-, nOcc, h⟩ := hb q b hq
      rw [h b] at hF ⊢
      split at hF
      · rename_i hlt; rw [if_pos hlt]
      · norm_num at hF
    apply le_antisymm
    · rcases a3 with h | ⟨q, b, hq, hF, h⟩ <;> rw [h]
      · exact b1
      · rw [hone q b hq hF]; exact b2 q b hq hF
    · rcases b3 with h | ⟨q, b, hq, hF, h⟩ <;> rw [h]
      · exact a1
      · rw [← hone q b hq hF]; exact a2 q b hq hF
  have h2 : eL s ≤ extremal M false (eigsQP l dV V) procs s := by
    rw [← hL]
    obtain ⟨a1, a2, a3⟩ := extremal_lumo M (eigsQP l dV V) procs s
    obtain ⟨b1, b2, b3⟩ := extremal_lumo M QState.eig procs s
    rcases a3 with h | ⟨q, b, hq, hF, h⟩ <;> rw [h]
    · exact b1
    · exact (b2 q b hq hF).trans (C109_quasiparticles l hl dV hdV V q (hV _) (hb q b hq).1 b)
  unfold gap
  simp only
  rw [h1]
  constructor
  · ring
  · linarith

/-- **C109 (smearing), fails.** With smearing, when all bands of a spin are entirely filled or empty, as they are in an insulator to machine precision, the band edges are undefined. -/
theorem C109_smearing_fails (M width : ℝ) (hw : width ≠ 0) (homo : Bool) (procs : List (List (QState G nb))) (s : Fin 2) (h : ∀ P ∈ procs, ∀ q ∈ P, q.spin = s → ∀ b, q.F b = 0 ∨ q.F b = 1) :
    extremalEnergy M width homo procs s = none := by
  unfold extremalEnergy
  rw [if_pos hw, smeared_eq homo _ s _ rfl, if_pos]
  refine List.sum_eq_zero fun x hx => ?_
  obtain ⟨y, hy, rfl⟩ := List.mem_map.1 hx
  obtain ⟨P, hP, hq⟩ := List.mem_flatten.1 (mem_entries.1 hy)
  split
  · rename_i hs
    have : bandWeight homo (y.1.F y.2) = 0 := by
      obtain ⟨c1, c2⟩ := bandWeight_cases homo (y.1.F y.2)
      cases homo
      · obtain ⟨d1, -, d3⟩ := c2 rfl
        rcases h P hP _ hq hs y.2 with h0 | h0
        · exact d3 h0
        · exact d1 (by rw [h0]; norm_num)
      · obtain ⟨d1, -, d3⟩ := c1 rfl
        rcases h P hP _ hq hs y.2 with h0 | h0
        · exact d1 (by rw [h0]; norm_num)
        · exact d3 h0
    rw [this, mul_zero]
  · rfl

/-- **C109 (empty spin), fails.** In a spin without electrons, such as the second one of a hydrogen atom, the potential is undefined everywhere. -/
theorem C109_spin_fails (width : ℝ) (eH : Fin 2 → ℝ) (eL : Option (Fin 2 → ℝ)) (procs : List (List (QState G nb))) (s : Fin 2) (h : ∀ P ∈ procs, ∀ q ∈ P, q.spin = s → ∀ b, q.F b = 0) (r : G) :
    potential width eH eL (density procs) procs s r = none := by
  unfold potential
  rw [if_pos]
  unfold density
  refine List.sum_eq_zero fun x hx => ?_
  obtain ⟨q, hq, rfl⟩ := List.mem_map.1 hx
  obtain ⟨P, hP, hq⟩ := List.mem_flatten.1 hq
  split
  · rename_i hs
    simp [h P hP q hq hs]
  · rfl

theorem lap_sorted (n : ℕ) : SortedLapack (Davidson.lap n) := ⟨Davidson.lap_ok.ok n, fun A h => Davidson.lap_ok.sorted n A h⟩

/-- A state with one filled and one empty band, on a grid of two points. -/
def two : QState (Fin 2) 2 where
  spin := 0
  weight := 2
  F b := if b.val < 1 then 1 else 0
  eig b := b.val
  rho _ _ := 1
  psi b r := if b = 0 then 1 else if r = 0 then 1 else -1

/-- A state with two partially filled bands. -/
def warm : QState (Fin 2) 2 := { two with F := fun b => if b.val < 1 then 3 / 4 else 1 / 4 }

theorem two_ok : two.OK where
  weight := by norm_num [two]
  F0 b := by simp only [two]; split <;> norm_num
  F1 b := by simp only [two]; split <;> norm_num
  rho _ _ := by norm_num [two]

theorem warm_ok : warm.OK where
  weight := by norm_num [warm, two]
  F0 b := by simp only [warm]; split <;> norm_num
  F1 b := by simp only [warm]; split <;> norm_num
  rho _ _ := by norm_num [warm, two]

theorem two_insulator : two.Insulator := ⟨fun a b h => by simpa [two] using h, 1, fun b => rfl⟩

theorem two_density (r : Fin 2) : density [[two], []] 0 r = 2 := by simp [density, two, Fin.sum_univ_two]

theorem two_band (q : QState (Fin 2) 2) (b : Fin 2) (h : Band [[two], []] 0 q b) : q = two := by
  obtain ⟨⟨P, hP, hq⟩, -⟩ := h
  simp only [List.mem_cons, List.not_mem_nil, or_false] at hP
  rcases hP with rfl | rfl
  · simpa using hq
  · simp at hq

/-- C109 (band edges) for this state, with a second process that has no state. -/
example : extremalEnergy 10 0 true [[two], []] 0 = some 0 ∧ extremalEnergy 10 0 false [[two], []] 0 = some 1 := by
  obtain ⟨eH, eL, h1, h2, h3, -, h4, -⟩ := C109_edges 10 [[two], []] 0 fun q b h => by
    rw [two_band q b h]
    fin_cases b <;> norm_num [two]
  have b0 : (0 : ℝ) ∈ occupied [[two], []] 0 := ⟨two, 0, ⟨⟨[two], by simp, by simp⟩, rfl⟩, by norm_num [two], by simp [two]⟩
  have b1 : (1 : ℝ) ∈ empty [[two], []] 0 := ⟨two, 1, ⟨⟨[two], by simp, by simp⟩, rfl⟩, by norm_num [two], by simp [two]⟩
  have g0 := h3 ⟨_, b0⟩
  have g1 := h4 ⟨_, b1⟩
  obtain ⟨q, b, hb, hF, he⟩ := g0.1
  obtain ⟨q', b', hb', hF', he'⟩ := g1.1
  have hq := two_band _ _ hb
  have hq' := two_band _ _ hb'
  subst hq hq'
  rw [h1, h2, he, he']
  constructor
  · fin_cases b
    · simp [two]
    · norm_num [two] at hF
  · fin_cases b'
    · norm_num [two] at hF'
    · simp [two]

/-- C109 (smeared edges): both edges exist in the second state. -/
example : (extremalEnergy 10 0.01 true [[warm]] 0).isSome ∧ (extremalEnergy 10 0.01 false [[warm]] 0).isSome := by
  obtain ⟨h1, h2, -⟩ := C109_smeared 10 0.01 (by norm_num) [[warm]] 0 fun q b h => by
    obtain ⟨⟨P, hP, hq⟩, -⟩ := h
    simp only [List.mem_singleton] at hP
    subst hP
    rw [List.mem_singleton.1 hq]
    exact warm_ok
  exact ⟨h1.2 ⟨warm, 0, ⟨⟨[warm], by simp, by simp⟩, rfl⟩, by norm_num [warm], by norm_num [warm]⟩, h2.2 ⟨warm, 1, ⟨⟨[warm], by simp, by simp⟩, rfl⟩, by norm_num [warm], by norm_num [warm]⟩⟩

/-- C109 (discontinuity) for the first state. -/
example : ∃ v, potential 0 (fun _ => 0) (some fun _ => 1) (density [[two], []]) [[two], []] 0 (0 : Fin 2) = some v ∧ 0 ≤ v ∧ v ≤ K * Real.sqrt (1 - 0) :=
  C109_discontinuity (fun _ => 0) (fun _ => 1) [[two], []] 0 0 (fun P hP q hq => by
    rw [two_band q 0 ⟨⟨P, hP, hq⟩, by
      simp only [List.mem_cons, List.not_mem_nil, or_false] at hP
      rcases hP with rfl | rfl
      · rw [List.mem_singleton.1 hq]; rfl
      · simp at hq⟩]
    exact two_ok) (by rw [two_density]; norm_num) (by norm_num)

/-- C109 (quasiparticles, occupied bands): the filled band keeps its energy, the empty one does not fall. -/
example (V : Fin 2 → Fin 2 → ℝ) (hV : ∀ s r, 0 ≤ V s r) : eigsQP (Davidson.lap 2) 1 V two 0 = 0 ∧ 1 ≤ eigsQP (Davidson.lap 2) 1 V two 1 := by
  constructor
  · rw [C109_occupied _ (lap_sorted 2) 1 (by norm_num) V two (hV _) two_insulator 0 (by simp [two])]
    simp [two]
  · simpa [two] using C109_quasiparticles _ (lap_sorted 2) 1 (by norm_num) V two (hV _) two_insulator.1 1

end
end Jdftx.GLLB
