import Verif.Lemmas.VdwD3Spec
import Verif.Props.VdwD2
import Mathlib.Analysis.Complex.ExponentialBounds

/-!
# C106: DFT-D3 dispersion energy, forces and stress
-/
namespace Jdftx.D3
noncomputable section
open M3 Filter Topology Ewald

variable {n : Nat}

/-- Elements outside of the table stop the run; for the others the references are all entries of the table for that element,
in order, each with its coordination number. -/
theorem C106_elements (T : Tables) (Z : Int) :
    ((Z < 1 ∨ 94 < Z) → getAtomParams T Z = .error .die) ∧
    (1 ≤ Z → Z ≤ 94 → ∃ a, getAtomParams T Z = .ok a ∧ a.iCN.Pairwise (· < ·) ∧
      (∀ i, i ∈ a.iCN ↔ i < T.nCN ∧ T.Z i = Z) ∧ a.CN = a.iCN.map T.CN ∧
      a.sqrtQ = T.sqrtQ (Z - 1).toNat ∧ a.k2Rcov = T.k2Rcov (Z - 1).toNat ∧ a.Z = Z) := by
  constructor
  · intro h
    rw [getAtomParams, if_pos (by omega)]
  · intro h1 h2
    rw [getAtomParams, if_neg (by omega)]
    refine ⟨_, rfl, ?_, ?_, rfl, rfl, rfl, rfl⟩
    · exact List.pairwise_lt_range.filter _
    · intro i
      simp only [List.mem_filter, List.mem_range, decide_eq_true_eq]
      exact ⟨fun h => ⟨h.1, h.2.symm⟩, fun h => ⟨h.1, h.2.symm⟩⟩

/-- The table of coefficients is indexed by unordered pairs: different pairs have different entries, and the entries of pairs
below `m` are the first `m (m + 1) / 2`. -/
theorem C106_pair_index (m i j i' j' : Nat) :
    pairIndex i j = pairIndex j i ∧
    (pairIndex i j = pairIndex i' j' → (i = i' ∧ j = j') ∨ (i = j' ∧ j = i')) ∧
    (i < m → j < m → pairIndex i j < m * (m + 1) / 2) := by
  have hT : ∀ k : Nat, k * (k + 1) / 2 + k < (k + 1) * (k + 2) / 2 := by
    intro k
    have : (k + 1) * (k + 2) = k * (k + 1) + (k + 1) * 2 := by ring
    rw [this, Nat.add_mul_div_right _ _ (by norm_num)]; omega
  have hmono : ∀ a b : Nat, a < b → a * (a + 1) / 2 + a < b * (b + 1) / 2 := by
    intro a b hab
    refine (hT a).trans_le ?_
    exact Nat.div_le_div_right (Nat.mul_le_mul (by omega) (by omega))
  refine ⟨pairIndex_comm i j, fun h => ?_, fun hi hj => ?_⟩
  · unfold pairIndex at h
    have h1 : min i j ≤ max i j := min_le_max
    have h2 : min i' j' ≤ max i' j' := min_le_max
    have e : max i j = max i' j' := by
      rcases lt_trichotomy (max i j) (max i' j') with hl | hl | hl
      · have := hmono _ _ hl; omega
      · exact hl
      · have := hmono _ _ hl; omega
    have e' : min i j = min i' j' := by rw [e] at h; omega
    omega
  · unfold pairIndex
    have h1 : min i j ≤ max i j := min_le_max
    have := hmono (max i j) m (by omega)
    omega

/-- On any number of processes, the coordination numbers are the sum of the counting function over all neighbours in the
neighbouring cells. -/
theorem C106_coordination (P : Nat) (hP : 0 < P) (p : Params n) (pos : Fin n → V3 ℝ) :
    computeCN P p pos = some (coordination p pos) := by
  rw [computeCN_eq P hP]
  exact congrArg some (funext fun c => cnQ_eq p pos c)

/-- The interpolation weights are not negative and add up to one, are those of the specification as long as their
normalisation does not underflow, and come with their derivative. -/
theorem C106_weights (CN : List ℝ) (hCN : CN ≠ []) (x : ℝ) :
    (getL CN x).length = CN.length ∧ (∀ y ∈ getL CN x, 0 ≤ y) ∧ (getL CN x).sum = 1 ∧
    (((10 : ℝ) ^ 40)⁻¹ ≤ (CN.map fun c => Real.exp (-4 * (x - c) ^ 2)).sum → getL CN x = CN.map (weight CN x)) ∧
    ((CN.map fun c => Real.exp (-4 * (x - c) ^ 2)).sum ≠ ((10 : ℝ) ^ 40)⁻¹ →
      ∀ i, HasDerivAt (fun x => (getL CN x).getD i 0) ((getLprime CN x).getD i 0) x) := by
  refine ⟨getL_length CN x, ?_, ?_, ?_, fun h i => getL_deriv CN x h i⟩
  · intro y hy
    obtain ⟨i, hi, rfl⟩ := List.getElem_of_mem hy
    have := getL_nonneg CN x i
    rwa [List.getD_eq_getElem _ _ hi] at this
  · unfold getL
    split
    · have h := maxElement_lt CN hCN
      have : ((List.range CN.length).map fun i => if i = maxElement CN then (1 : ℝ) else 0).sum
          = ∑ i ∈ Finset.range CN.length, if i = maxElement CN then (1 : ℝ) else 0 := by
        rw [Finset.sum_range, ← List.sum_ofFn, List.ofFn_eq_map]
        simp [← List.map_coe_finRange_eq_range, Function.comp_def]
      rw [this, Finset.sum_ite_eq', if_pos (Finset.mem_range.2 h)]
    · rename_i h
      rw [List.sum_map_mul_right]
      exact mul_one_div_cancel (tiny_pos.trans_le (not_lt.1 h)).ne'
  · intro h
    have h' : ¬ Lsum CN x < tiny := not_lt.2 h
    rw [getL, if_neg h']
    refine List.map_congr_left fun c _ => ?_
    rw [weight, ← Lsum_spec, mul_one_div]; rfl

/-- Where the normalisation underflows, the weight that the specification gives to any reference whose coordination number is
below the largest one by at least 0.9 is less than 1e-14, for reference coordination numbers up to 4.7 and a coordination number
that is not negative: taking the reference with the largest coordination number is accurate. -/
theorem C106_underflow (CN : List ℝ) (x : ℝ) (hx : 0 ≤ x) (h0 : ∀ c ∈ CN, 0 ≤ c ∧ c ≤ 4.7)
    (h : (CN.map fun c => Real.exp (-4 * (x - c) ^ 2)).sum < ((10 : ℝ) ^ 40)⁻¹) (c : ℝ) (hc : c ∈ CN)
    (hgap : c + 0.9 ≤ CN.getD (maxElement CN) 0) : weight CN x c < 1e-14 := by
  let M := CN.getD (maxElement CN) 0
  have hne : CN ≠ [] := List.ne_nil_of_mem hc
  have hM : M ∈ CN := by
    show CN.getD (maxElement CN) 0 ∈ CN
    rw [List.getD_eq_getElem _ _ (maxElement_lt CN hne)]; exact List.getElem_mem _
  have hle : ∀ d ∈ CN, Real.exp (-4 * (x - d) ^ 2) ≤ (CN.map fun c => Real.exp (-4 * (x - c) ^ 2)).sum := by
    intro d hd
    refine List.single_le_sum (fun y hy => ?_) _ (List.mem_map_of_mem (f := fun c => Real.exp (-4 * (x - c) ^ 2)) hd)
    obtain ⟨c, -, rfl⟩ := List.mem_map.1 hy
    exact (Real.exp_pos _).le
  -- e^(-92) is above the threshold
  have h92 : ((10 : ℝ) ^ 40)⁻¹ < Real.exp (-92) := by
    rw [Real.exp_neg]
    refine inv_strictAnti₀ (Real.exp_pos _) ?_
    have h1 : Real.exp 1 < 2.7182818286 := Real.exp_one_lt_d9
    have h2 : Real.exp 92 = Real.exp 1 ^ 92 := by rw [← Real.exp_nat_mul]; norm_num
    rw [h2]
    calc Real.exp 1 ^ 92 < 2.7182818286 ^ 92 := pow_lt_pow_left₀ h1 (Real.exp_pos 1).le (by norm_num)
      _ < 10 ^ 40 := by norm_num
  have hfar : 92 < 4 * (x - M) ^ 2 := by
    by_contra hcon
    have : Real.exp (-92) ≤ Real.exp (-4 * (x - M) ^ 2) := Real.exp_le_exp.2 (by linarith [not_lt.1 hcon])
    linarith [hle M hM]
  have hxM : M + 4.7 ≤ x := by
    have hMb := h0 M hM
    by_contra hcon
    have h1 : x - M < 4.7 := by linarith [not_le.1 hcon]
    have h2 : -4.7 ≤ x - M := by linarith
    nlinarith
  have hcb := (h0 c hc).1
  have hg : c + 0.9 ≤ M := hgap
  have hbound : -4 * (x - c) ^ 2 ≤ -4 * (x - M) ^ 2 + -36 := by nlinarith
  have h36 : Real.exp (-36) < 1e-14 := by
    rw [Real.exp_neg]
    have h1 : 2.7182818283 < Real.exp 1 := Real.exp_one_gt_d9
    have h2 : Real.exp 36 = Real.exp 1 ^ 36 := by rw [← Real.exp_nat_mul]; norm_num
    rw [h2, inv_lt_comm₀ (by positivity) (by norm_num)]
    calc ((1e-14 : ℝ))⁻¹ < 2.7182818283 ^ 36 := by norm_num
      _ < Real.exp 1 ^ 36 := pow_lt_pow_left₀ h1 (by norm_num) (by norm_num)
  unfold weight
  have hpos : 0 < (CN.map fun c => Real.exp (-4 * (x - c) ^ 2)).sum := (Real.exp_pos _).trans_le (hle M hM)
  rw [div_lt_iff₀ hpos]
  calc Real.exp (-4 * (x - c) ^ 2) ≤ Real.exp (-4 * (x - M) ^ 2 + -36) := Real.exp_le_exp.2 hbound
    _ = Real.exp (-36) * Real.exp (-4 * (x - M) ^ 2) := by rw [Real.exp_add, mul_comm]
    _ < 1e-14 * Real.exp (-4 * (x - M) ^ 2) := mul_lt_mul_of_pos_right h36 (Real.exp_pos _)
    _ ≤ _ := mul_le_mul_of_nonneg_left (hle M hM) (by norm_num)

/-- The matrix of coefficients of a pair of elements: element `(i, j)` is not in general the coefficient of the references `i` and
`j`, but of the references at the quotient and remainder of `n₁ j + i` by `n₂`. -/
theorem C106_matrix (T : Tables) (a1 a2 : AtomParams) (i j : Nat) (hi : i < a1.iCN.length) (hj : j < a2.iCN.length) :
    element a1.iCN.length (pairC6data T a1 a2) i j = T.coeff (pairIndex
      (a1.iCN.getD ((a1.iCN.length * j + i) / a2.iCN.length) 0) (a2.iCN.getD ((a1.iCN.length * j + i) % a2.iCN.length) 0)) := by
  have h2 : 0 < a2.iCN.length := by omega
  have hlt : a1.iCN.length * j + i < a2.iCN.length * a1.iCN.length := by nlinarith
  have h := data_getD T a1 a2 ((a1.iCN.length * j + i) / a2.iCN.length) ((a1.iCN.length * j + i) % a2.iCN.length)
    (Nat.div_lt_of_lt_mul hlt) (Nat.mod_lt _ h2)
  rw [← h, element, mul_comm ((a1.iCN.length * j + i) / a2.iCN.length), Nat.div_add_mod]

/-- On any number of processes, when no normalisation underflows, the energy is the published one, for atoms of one element and
for pairs of elements of which one has a single reference. Missing: pairs of elements with several references each, for which
it is wrong (`C106_coefficients_fails`). -/
theorem C106_energy_partial (P : Nat) (hP : 0 < P) (p : Params n) (hV : Valid p) (pos : Fin n → V3 ℝ)
    (hE : ∀ a b, p.atom a = p.atom b ∨ (p.atom a).iCN.length = 1 ∨ (p.atom b).iCN.length = 1)
    (hL : ∀ a, ((10 : ℝ) ^ 40)⁻¹ ≤ ((p.atom a).CN.map fun c => Real.exp (-4 * (coordination p pos a - c) ^ 2)).sum) :
    ∃ out, energyAndGrad P p pos = some out ∧ out.E = total p pos :=
  ⟨_, energyAndGrad_eq P hP p hV pos, eQ_total p hV pos fun a b =>
    sandwich_interp p.T _ _ (valid_length p hV a) (valid_length p hV b) _ _ (hL a) (hL b) (hE a b)⟩

/-- Energy, forces and stress do not depend on the number of processes. -/
theorem C106_processes (P Q : Nat) (hP : 0 < P) (hQ : 0 < Q) (p : Params n) (hV : Valid p) (pos : Fin n → V3 ℝ) :
    energyAndGrad P p pos = energyAndGrad Q p pos := by
  rw [energyAndGrad_eq P hP p hV, energyAndGrad_eq Q hQ p hV]

/-- With positive scale factors the energy is never positive. -/
theorem C106_attractive (P : Nat) (hP : 0 < P) (p : Params n) (hV : Valid p) (h6 : 0 ≤ p.s6) (h8 : 0 ≤ p.s8)
    (pos : Fin n → V3 ℝ) (out : Out n) (h : energyAndGrad P p pos = some out) : out.E ≤ 0 := by
  rw [energyAndGrad_eq P hP p hV] at h
  obtain rfl := Option.some.inj h
  simp only [closed, eQ]
  refine Finset.sum_nonpos fun a _ => Finset.sum_nonpos fun b _ => ?_
  refine mul_nonpos_of_nonneg_of_nonpos (C6pair_pos p hV _ a b).le (Finset.sum_nonpos fun v _ => ?_)
  refine mul_nonpos_of_nonneg_of_nonpos (by unfold D2.cellWeight; split <;> norm_num) ?_
  unfold bareA
  split
  · have hr := Real.sqrt_nonneg (table p.R pos v a b)
    have hq : 0 ≤ ratio p a b := by
      have := hV.sqrtQ a; have := hV.sqrtQ b; unfold ratio; positivity
    have ev : ∀ (y : ℝ) (j : Nat), 0 ≤ y ^ (2 * j) := fun y j => (even_two_mul j).pow_nonneg y
    have t6 : 0 ≤ term6 p (radius p a b) (Real.sqrt (table p.R pos v a b)) := by
      unfold term6 vdWpotentialBJ vdWpotential
      split
      · have := ev (p.sr6 * radius p a b + p.sr8) 3; simp only [Nat.reduceMul] at this; positivity
      · have := ev (p.sr6 * radius p a b * (1 / Real.sqrt (table p.R pos v a b))) 7; simp only [Nat.reduceMul] at this; positivity
    have t8 : 0 ≤ term8 p (radius p a b) (Real.sqrt (table p.R pos v a b)) := by
      unfold term8 vdWpotentialBJ vdWpotential
      split
      · have := ev (p.sr6 * radius p a b + p.sr8) 4; simp only [Nat.reduceMul] at this; positivity
      · have := ev (p.sr8 * radius p a b * (1 / Real.sqrt (table p.R pos v a b))) 8; simp only [Nat.reduceMul] at this; positivity
    have := mul_nonneg h6 t6
    have := mul_nonneg (mul_nonneg hq h8) t8
    linarith
  · exact le_refl _

theorem off_table (p : Params n) (pos : Fin n → V3 ℝ) (h : OffThreshold p pos) (a b : Fin n) (v : Fin 3 → Int) :
    Real.sqrt (table p.R pos v a b) ≠ rCut p ∧ Real.sqrt (table p.R pos v a b) ≠ 50 := h.1 a b v

theorem off_sum (p : Params n) (pos : Fin n → V3 ℝ) (h : OffThreshold p pos) (a : Fin n) :
    Lsum (p.atom a).CN (cnQ p (reach p rCutCN) (table p.R pos) a) ≠ tiny := by
  rw [cnQ_eq]; exact h.2 a

/-- The force added to an atom is minus the derivative, with respect to its position, of the energy returned. -/
theorem C106_forces (P : Nat) (hP : 0 < P) (p : Params n) (hV : Valid p) (hR : det p.R ≠ 0) (pos : Fin n → V3 ℝ)
    (hA : Apart pos) (hO : OffThreshold p pos) (out : Out n) (h : energyAndGrad P p pos = some out) (c : Fin n) (u : V3 ℝ) :
    ∃ E : (Fin n → V3 ℝ) → ℝ, (∀ pos', ∃ out', energyAndGrad P p pos' = some out' ∧ out'.E = E pos') ∧
      HasDerivAt (fun t => E (displace pos c u t)) (-dot (out.force c) u) 0 := by
  refine ⟨fun pos' => (closed p pos').E, fun pos' => ⟨_, energyAndGrad_eq P hP p hV pos', rfl⟩, ?_⟩
  rw [energyAndGrad_eq P hP p hV] at h
  obtain rfl := Option.some.inj h
  let x : (Fin 3 → Int) → Fin n → Fin n → V3 ℝ := fun v a b => sep v (pos a) (pos b)
  have hq : ∀ t v a b, table p.R (displace pos c u t) v a b
      = WS.lenSq p.R (x v a b) + t * (2 * (del c a - del c b) * WS.ip p.R (x v a b) u) + t ^ 2 * ((del c a - del c b) ^ 2 * WS.lenSq p.R u) := by
    intro t v a b
    have : sep v (displace pos c u t a) (displace pos c u t b) = fun k => x v a b k - (-(t * (del c a - del c b))) * u k := by
      funext k; simp only [sep, displace_eq, x]; ring
    rw [table, this, WS.lenSq_sub]
    simp only [WS.ip, dot]; ring
  have hpath : Path p (fun t => table p.R (displace pos c u t)) (fun v a b => 2 * (del c a - del c b) * WS.ip p.R (x v a b) u) := by
    constructor
    · intro v a b
      simp only [hq]
      have := (((hasDerivAt_id (0 : ℝ)).mul_const (2 * (del c a - del c b) * WS.ip p.R (x v a b) u)).const_add (WS.lenSq p.R (x v a b))).add
        (((hasDerivAt_id (0 : ℝ)).pow 2).mul_const ((del c a - del c b) ^ 2 * WS.lenSq p.R u))
      exact this.congr_deriv (by simp)
    · intro v a b
      by_cases hx : x v a b = 0
      · right
        have hab : a = b := by
          by_contra hab
          obtain ⟨k, hk⟩ := hA a b hab (fun k => -v k)
          apply hk
          have := congrFun hx k
          simp only [x, sep, toR, Pi.zero_apply] at this
          push_cast; linarith
        subst hab
        have h0 : WS.lenSq p.R (x v a a) = 0 := by rw [hx]; simp [WS.lenSq, dot, mulMV]
        exact ⟨fun t => by rw [hq, h0]; ring, by ring⟩
      · left
        simp only [displace_zero]
        exact ⟨WS.lenSq_pos p.R hR _ hx, off_table p pos hO a b v⟩
  have hd := eQ_deriv p hV (reach p (rCut p)) (reach p rCutCN) _ _ hpath (by simp only [displace_zero]; exact off_sum p pos hO)
  refine hd.congr_deriv ?_
  simp only [displace_zero]
  have e : ∀ (N : Fin 3 → Nat) (G : Fin n → Fin n → (Fin 3 → Int) → ℝ),
      ∑ a, ∑ b, ∑ v ∈ half N, D2.cellWeight v * G a b v * ((1 / 2) * (2 * (del c a - del c b) * WS.ip p.R (x v a b) u))
        = -dot (fun k => ∑ a, ∑ b, ∑ v ∈ half N, (del c b - del c a) * (D2.cellWeight v * G a b v * mulMV (WS.RTR p.R) (x v a b) k)) u := by
    intro N G
    have e1 : ∀ a b v, D2.cellWeight v * G a b v * ((1 / 2) * (2 * (del c a - del c b) * WS.ip p.R (x v a b) u))
        = dot (fun k => -((del c b - del c a) * (D2.cellWeight v * G a b v * mulMV (WS.RTR p.R) (x v a b) k))) u := by
      intro a b v
      rw [← WS.rtr_dot]; simp only [dot]; ring
    simp only [e1, dot_sum]
    simp only [dot, Finset.sum_neg_distrib]; ring
  rw [e _ (fun a b v => C6pair p (cnQ p (reach p rCutCN) (table p.R pos)) a b * bareAG p a b (table p.R pos v a b)),
    e _ (fun a b v => (ecnQ p (cnQ p (reach p rCutCN) (table p.R pos)) (aQ p (reach p (rCut p)) (table p.R pos)) a
      + ecnQ p (cnQ p (reach p rCutCN) (table p.R pos)) (aQ p (reach p (rCut p)) (table p.R pos)) b) * bareNG p a b (table p.R pos v a b))]
  simp only [dot, closed, x]; ring

theorem reach_eventually (p : Params n) (hR : det p.R ≠ 0) (rc : ℝ) (e : Mat ℝ)
    (hN : ∀ k, p.trunc k = false → ∀ m : ℕ, rc / Basis.length (column p.R k) ≠ m) :
    ∀ᶠ t in 𝓝 (0 : ℝ), reach { p with R := strained p.R e t } rc = reach p rc := by
  have : ∀ k, ∀ᶠ t in 𝓝 (0 : ℝ), reach { p with R := strained p.R e t } rc k = reach p rc k := by
    intro k
    cases hk : p.trunc k with
    | true => exact Eventually.of_forall fun t => by simp [reach, hk]
    | false =>
      have hl : ContinuousAt (fun t => Basis.length (column (strained p.R e t) k)) 0 := by
        simp only [Basis.length, column, vec, strained]
        fun_prop
      have hl0 : Basis.length (column (strained p.R e 0) k) ≠ 0 := by
        rw [strained_zero]; exact (D2.length_pos p.R hR k).ne'
      have := D2.ceil_eventually (fun t => rc / Basis.length (column (strained p.R e t) k)) (continuousAt_const.div hl hl0)
        (by simp only [strained_zero]; exact hN k hk)
      filter_upwards [this] with t ht
      simp only [strained_zero] at ht
      simp only [reach, hk]
      exact ht
  filter_upwards [eventually_all.2 this] with t ht
  exact funext ht

/-- The matrix returned is the derivative, with respect to strain of the lattice, of the energy returned. Strains at which the
number of neighbouring cells changes are excluded. -/
theorem C106_stress (P : Nat) (hP : 0 < P) (p : Params n) (hV : Valid p) (hR : det p.R ≠ 0) (pos : Fin n → V3 ℝ)
    (hO : OffThreshold p pos)
    (hN : ∀ k, p.trunc k = false → ∀ m : ℕ, rCut p / Basis.length (column p.R k) ≠ m ∧ 50 / Basis.length (column p.R k) ≠ m)
    (out : Out n) (h : energyAndGrad P p pos = some out) (e : Mat ℝ) :
    ∃ E : Mat ℝ → ℝ, (∀ R', ∃ out', energyAndGrad P { p with R := R' } pos = some out' ∧ out'.E = E R') ∧
      HasDerivAt (fun t => E (strained p.R e t)) (contract out.stress e) 0 := by
  have hV' : ∀ R', Valid { p with R := R' } := fun R' => ⟨hV.atoms, hV.refs, hV.coeff, hV.sqrtQ, hV.cut⟩
  refine ⟨fun R' => (closed { p with R := R' } pos).E, fun R' => ⟨_, energyAndGrad_eq P hP _ (hV' R') pos, rfl⟩, ?_⟩
  rw [energyAndGrad_eq P hP p hV] at h
  obtain rfl := Option.some.inj h
  let r : (Fin 3 → Int) → Fin n → Fin n → V3 ℝ := fun v a b => mulMV p.R (sep v (pos a) (pos b))
  have hq : ∀ t v a b, table (strained p.R e t) pos v a b
      = table p.R pos v a b + t * (2 * dot (r v a b) (mulMV e (r v a b))) + t ^ 2 * dot (mulMV e (r v a b)) (mulMV e (r v a b)) := by
    intro t v a b; simp only [table, WS.lenSq, strained, dot, mulMV, r]; ring
  have hpath : Path p (fun t => table (strained p.R e t) pos) (fun v a b => 2 * dot (r v a b) (mulMV e (r v a b))) := by
    constructor
    · intro v a b
      simp only [hq]
      have h := hasDerivAt_id (0 : ℝ)
      exact (((h.mul_const _).const_add _).add ((h.pow 2).mul_const _)).congr_deriv (by simp)
    · intro v a b
      by_cases hx : sep v (pos a) (pos b) = 0
      · right
        refine ⟨fun t => ?_, ?_⟩
        · simp only [table, hx]; simp [WS.lenSq, dot, mulMV]
        · simp only [r, hx]; simp [dot, mulMV]
      · left
        simp only [strained_zero]
        exact ⟨WS.lenSq_pos p.R hR _ hx, off_table p pos hO a b v⟩
  have hd := eQ_deriv p hV (reach p (rCut p)) (reach p rCutCN) _ _ hpath (by simp only [strained_zero]; exact off_sum p pos hO)
  refine HasDerivAt.congr_of_eventuallyEq (hd.congr_deriv ?_) ?_
  · simp only [strained_zero]
    have e1 : ∀ (N : Fin 3 → Nat) (G : Fin n → Fin n → (Fin 3 → Int) → ℝ),
        ∑ a, ∑ b, ∑ v ∈ half N, D2.cellWeight v * G a b v * ((1 / 2) * (2 * dot (r v a b) (mulMV e (r v a b))))
          = contract (fun i j => ∑ a, ∑ b, ∑ v ∈ half N, D2.cellWeight v * G a b v * outer (r v a b) (r v a b) i j) e := by
      intro N G
      have e2 : ∀ a b v, D2.cellWeight v * G a b v * ((1 / 2) * (2 * dot (r v a b) (mulMV e (r v a b))))
          = contract (fun i j => D2.cellWeight v * G a b v * outer (r v a b) (r v a b) i j) e := by
        intro a b v
        simp only [contract_eq, outer, dot, mulMV]; ring
      simp only [e2, contract_sum]
    rw [e1 _ (fun a b v => C6pair p (cnQ p (reach p rCutCN) (table p.R pos)) a b * bareAG p a b (table p.R pos v a b)),
      e1 _ (fun a b v => (ecnQ p (cnQ p (reach p rCutCN) (table p.R pos)) (aQ p (reach p (rCut p)) (table p.R pos)) a
        + ecnQ p (cnQ p (reach p rCutCN) (table p.R pos)) (aQ p (reach p (rCut p)) (table p.R pos)) b) * bareNG p a b (table p.R pos v a b))]
    simp only [contract_eq, closed, r]; ring
  · filter_upwards [reach_eventually p hR (rCut p) e fun k hk m => (hN k hk m).1,
      reach_eventually p hR rCutCN e fun k hk m => (hN k hk m).2] with t h1 h2
    have h1' : reach { p with R := strained p.R e t } (rCut { p with R := strained p.R e t }) = reach p (rCut p) := h1
    simp only [closed, h1', h2]
    rfl

/-- The forces add up to zero. -/
theorem C106_momentum (P : Nat) (hP : 0 < P) (p : Params n) (hV : Valid p) (pos : Fin n → V3 ℝ) (out : Out n)
    (h : energyAndGrad P p pos = some out) (k : Fin 3) : ∑ c, out.force c k = 0 := by
  rw [energyAndGrad_eq P hP p hV] at h
  obtain rfl := Option.some.inj h
  have key : ∀ (N : Fin 3 → Nat) (G : Fin n → Fin n → (Fin 3 → Int) → ℝ),
      ∑ c, ∑ a, ∑ b, ∑ v ∈ half N, (del c b - del c a) * G a b v = 0 := by
    intro N G
    rw [Finset.sum_comm]
    refine Finset.sum_eq_zero fun a _ => ?_
    rw [Finset.sum_comm]
    refine Finset.sum_eq_zero fun b _ => ?_
    rw [Finset.sum_comm]
    refine Finset.sum_eq_zero fun v _ => ?_
    rw [← Finset.sum_mul]
    have : ∑ c, (del c b - del c a) = 0 := by
      rw [Finset.sum_sub_distrib]
      simp [del]
    rw [this, zero_mul]
  simp only [closed]
  rw [Finset.sum_add_distrib, key, key, add_zero]

end
end Jdftx.D3
