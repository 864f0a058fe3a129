import Verif.Props.VdwD3

/-!
# C106: where the dispersion correction departs from the published one
-/
namespace Jdftx.D3
noncomputable section
open M3 Filter Topology Ewald

/-- An excerpt of the tables: hydrogen and lithium, with the entries of VanDerWaalsD3_data_C6.h for the numbers, the coordination
numbers and the coefficients of their references (0 and 94 for hydrogen, 2 and 95 for lithium). -/
def excerpt : Tables where
  sqrtQ := fun _ => 2
  k2Rcov := fun _ => 1
  R0_Angstrom := fun _ => 2
  angstrom := 1.8897
  nCN := 96
  Z := fun i => if i = 0 ∨ i = 94 then 1 else if i = 2 ∨ i = 95 then 3 else 0
  CN := fun i => if i = 0 then 0.9118 else if i = 95 then 0.9865 else 0
  coeff := fun k => if k = 3 then 38.9448 else if k = 4560 then 14.3165 else if k = 4467 then 68.9391
    else if k = 4654 then 24.0573 else 1

/-- Hydrogen. -/
def hydrogen : AtomParams := ⟨1, 2, 1, [0.9118, 0], [0, 94]⟩
/-- Lithium. -/
def lithium : AtomParams := ⟨3, 2, 1, [0, 0.9865], [2, 95]⟩

theorem hydrogen_ok : getAtomParams excerpt 1 = .ok hydrogen := by
  have h : ((List.range 96).filter fun i => decide ((1 : Int) = excerpt.Z i)) = [0, 94] := by
    simp only [excerpt]; decide +kernel
  unfold getAtomParams
  rw [if_neg (by norm_num)]
  have h' : (List.range excerpt.nCN).filter (fun i => decide ((1 : Int) = excerpt.Z i)) = [0, 94] := h
  simp only [h', hydrogen]
  simp [excerpt]

theorem lithium_ok : getAtomParams excerpt 3 = .ok lithium := by
  have h : ((List.range 96).filter fun i => decide ((3 : Int) = excerpt.Z i)) = [2, 95] := by
    simp only [excerpt]; decide +kernel
  unfold getAtomParams
  rw [if_neg (by norm_num)]
  have h' : (List.range excerpt.nCN).filter (fun i => decide ((3 : Int) = excerpt.Z i)) = [2, 95] := h
  simp only [h', lithium]
  simp [excerpt]

/-- A hydrogen and a lithium atom in a cubic cell of 201 bohrs, truncated in all directions, with the parameters of PBE. -/
def pair : Params 2 where
  R := diag 201 201 201
  lj := 0
  trunc := fun _ => true
  T := excerpt
  dampBJ := false
  s6 := 1
  sr6 := 1.217
  s8 := 0.722
  sr8 := 1
  atom := fun a => if a = 0 then hydrogen else lithium

theorem pair_valid : Valid pair where
  atoms := fun a => by
    match a with
    | 0 => exact ⟨1, hydrogen_ok⟩
    | 1 => exact ⟨3, lithium_ok⟩
  refs := fun a => by
    match a with
    | 0 => simp [pair, hydrogen]
    | 1 => simp [pair, lithium]
  coeff := fun k => by
    simp only [pair, excerpt]
    split
    · norm_num
    split
    · norm_num
    split
    · norm_num
    split <;> norm_num
  sqrtQ := fun a => by
    match a with
    | 0 => simp [pair, hydrogen]
    | 1 => simp [pair, lithium]
  cut := le_refl _

theorem pair_table (v : Fin 3 → Int) (a b : Fin 2) : table pair.R (D2.alongX (1 / 2)) v a b
    = 40401 * (((v 0 : ℝ) + (D2.alongX (1 / 2) a 0 - D2.alongX (1 / 2) b 0)) ^ 2 + (v 1 : ℝ) ^ 2 + (v 2 : ℝ) ^ 2) := by
  simp only [table, WS.lenSq, dot, mulMV, pair, diag, vec, sep, toR, D2.alongX]
  simp; ring

theorem pair_self (a : Fin 2) : table pair.R (D2.alongX (1 / 2)) 0 a a = 0 := by rw [pair_table]; simp
theorem pair_other (a b : Fin 2) (h : a ≠ b) : table pair.R (D2.alongX (1 / 2)) 0 a b = 40401 / 4 := by
  rw [pair_table]
  match a, b with
  | 0, 0 => exact absurd rfl h
  | 1, 1 => exact absurd rfl h
  | 0, 1 => simp [D2.alongX]; norm_num
  | 1, 0 => simp [D2.alongX]; norm_num

theorem pair_reach (rc : ℝ) : reach pair rc = fun _ => 0 := by funext k; simp [reach, pair]

theorem cells_zero : cells (fun _ => 0) = {0} := by
  unfold cells
  ext v
  simp only [Fintype.mem_piFinset, Finset.mem_Icc, Finset.mem_singleton]
  constructor
  · intro h; funext k; have := h k; simp at this; simpa using le_antisymm this.2 this.1
  · intro h k; rw [h]; simp

theorem half_zero : half (fun _ => 0) = {0} := by
  unfold half; rw [cells_zero]; ext v; simp only [Finset.mem_filter, Finset.mem_singleton]
  exact ⟨fun h => h.1, fun h => ⟨h, by rw [h]; simp⟩⟩

theorem pair_coordination : coordination pair (D2.alongX (1 / 2)) = fun _ => 0 := by
  have h100 : Real.sqrt (40401 / 4) = 201 / 2 := by rw [show (40401 / 4 : ℝ) = 201 / 2 * (201 / 2) by norm_num]; exact Real.sqrt_mul_self (by norm_num)
  funext a
  unfold coordination
  rw [neighbours_eq, pair_reach, cells_zero]
  refine Finset.sum_eq_zero fun b _ => ?_
  rw [Finset.sum_singleton, distance_eq]
  by_cases h : a = b
  · subst h
    rw [pair_self]; simp
  · rw [pair_other a b h, h100, if_pos (by norm_num)]

/-- The energy of the pair, up to the coefficient. -/
def pairA (a b : Fin 2) : ℝ := bareA pair a b (40401 / 4)

theorem pairA_self (a b : Fin 2) (h : a = b) : bareA pair a b (table pair.R (D2.alongX (1 / 2)) 0 a b) = 0 := by
  subst h; rw [pair_self]; simp [bareA]

theorem pairA_neg (a b : Fin 2) : pairA a b < 0 := by
  have h100 : Real.sqrt (40401 / 4) = 201 / 2 := by rw [show (40401 / 4 : ℝ) = 201 / 2 * (201 / 2) by norm_num]; exact Real.sqrt_mul_self (by norm_num)
  have hc : rCut pair = 200 := by simp [rCut, pair]
  have hq : 0 < ratio pair a b := by have := pair_valid.sqrtQ a; have := pair_valid.sqrtQ b; unfold ratio; positivity
  unfold pairA bareA
  rw [if_pos (by rw [hc]; norm_num), h100]
  have ev : ∀ (y : ℝ) (j : Nat), 0 ≤ y ^ (2 * j) := fun y j => (even_two_mul j).pow_nonneg y
  have t6 : 0 < term6 pair (radius pair a b) (201 / 2) := by
    have := ev (pair.sr6 * radius pair a b * (1 / (201 / 2))) 7
    simp only [Nat.reduceMul] at this
    have hb : pair.dampBJ = false := rfl
    unfold term6 vdWpotential
    rw [hb]; simp only [Bool.false_eq_true, if_false]
    positivity
  have t8 : 0 < term8 pair (radius pair a b) (201 / 2) := by
    have := ev (pair.sr8 * radius pair a b * (1 / (201 / 2))) 8
    simp only [Nat.reduceMul] at this
    have hb : pair.dampBJ = false := rfl
    unfold term8 vdWpotential
    rw [hb]; simp only [Bool.false_eq_true, if_false]
    positivity
  have h6 : pair.s6 = 1 := rfl
  have h8 : 0 < pair.s8 := by simp only [pair]; norm_num
  rw [h6]
  have := mul_pos (mul_pos hq h8) t8
  linarith

theorem exp_small (c : ℝ) (hc : 0.9 ≤ c) : Real.exp (-4 * (0 - c) ^ 2) ≤ 0.1 := by
  have h1 : Real.exp (-4 * (0 - c) ^ 2) ≤ Real.exp (-3) := Real.exp_le_exp.2 (by nlinarith)
  have h2 : Real.exp (-3) ≤ 0.1 := by
    rw [Real.exp_neg]
    have h1 : 2.7182818283 < Real.exp 1 := Real.exp_one_gt_d9
    have h2 : Real.exp 3 = Real.exp 1 ^ 3 := by rw [← Real.exp_nat_mul]; norm_num
    rw [h2, inv_le_comm₀ (by positivity) (by norm_num)]
    calc ((0.1 : ℝ))⁻¹ ≤ 2.7182818283 ^ 3 := by norm_num
      _ ≤ Real.exp 1 ^ 3 := pow_le_pow_left₀ (by norm_num) h1.le _
  linarith

/-- The coefficients of the two atoms, from the code and from the specification, in both orders. -/
theorem pair_coefficients : ∃ e d : ℝ, 0 < e ∧ e ≤ 0.1 ∧ 0 < d ∧ d ≤ 0.1 ∧
    C6pair pair (fun _ => 0) 0 1 = (e * 38.9448 + 14.3165 + e * d * 68.9391 + d * 24.0573) / ((e + 1) * (1 + d)) ∧
    C6pair pair (fun _ => 0) 1 0 = (e * 38.9448 + 14.3165 + e * d * 68.9391 + d * 24.0573) / ((e + 1) * (1 + d)) ∧
    C6interp excerpt hydrogen lithium 0 0 = (e * 38.9448 + e * d * 14.3165 + 68.9391 + d * 24.0573) / ((e + 1) * (1 + d)) := by
  let e := Real.exp (-4 * (0 - 0.9118) ^ 2)
  let d := Real.exp (-4 * (0 - 0.9865) ^ 2)
  have he : 0 < e := Real.exp_pos _
  have hd : 0 < d := Real.exp_pos _
  refine ⟨e, d, he, exp_small _ (by norm_num), hd, exp_small _ (by norm_num), ?_, ?_, ?_⟩
  all_goals
    have hH : (hydrogen.CN.map fun c => Real.exp (-4 * (0 - c) ^ 2)).sum = e + 1 := by simp [hydrogen, e]
    have hL : (lithium.CN.map fun c => Real.exp (-4 * (0 - c) ^ 2)).sum = 1 + d := by simp [lithium, d]
    have ht : tiny ≤ 1 := by unfold tiny; exact inv_le_one_of_one_le₀ (by norm_num)
    have tH : tiny ≤ Lsum hydrogen.CN 0 := by rw [Lsum_spec, hH]; linarith
    have tL : tiny ≤ Lsum lithium.CN 0 := by rw [Lsum_spec, hL]; linarith
    have wH0 : weight hydrogen.CN 0 0.9118 = e / (e + 1) := by unfold weight; rw [hH]
    have wH1 : weight hydrogen.CN 0 0 = 1 / (e + 1) := by unfold weight; rw [hH]; simp
    have wL0 : weight lithium.CN 0 0 = 1 / (1 + d) := by unfold weight; rw [hL]; simp
    have wL1 : weight lithium.CN 0 0.9865 = d / (1 + d) := by unfold weight; rw [hL]
  · have gH0 := getL_weight hydrogen.CN 0 tH 0 (by simp [hydrogen])
    have gH1 := getL_weight hydrogen.CN 0 tH 1 (by simp [hydrogen])
    have gL0 := getL_weight lithium.CN 0 tL 0 (by simp [lithium])
    have gL1 := getL_weight lithium.CN 0 tL 1 (by simp [lithium])
    rw [show hydrogen.CN.getD 0 0 = 0.9118 from rfl, wH0] at gH0
    rw [show hydrogen.CN.getD 1 0 = 0 from rfl, wH1] at gH1
    rw [show lithium.CN.getD 0 0 = 0 from rfl, wL0] at gL0
    rw [show lithium.CN.getD 1 0 = 0.9865 from rfl, wL1] at gL1
    have hdata : pairC6data excerpt hydrogen lithium = [38.9448, 14.3165, 68.9391, 24.0573] := by
      simp [pairC6data, hydrogen, lithium, pairIndex, excerpt]
    have hl1 : (getL hydrogen.CN 0).length = 2 := by rw [getL_length]; rfl
    have hl2 : (getL lithium.CN 0).length = 2 := by rw [getL_length]; rfl
    show sandwich (getL hydrogen.CN 0) (pairC6data excerpt hydrogen lithium) (getL lithium.CN 0) = _
    rw [sandwich, hl1, hl2, hdata]
    simp only [Finset.sum_range_succ, Finset.sum_range_zero, gH0, gH1, gL0, gL1, element]
    norm_num
    field_simp
    ring
  · have gH0 := getL_weight hydrogen.CN 0 tH 0 (by simp [hydrogen])
    have gH1 := getL_weight hydrogen.CN 0 tH 1 (by simp [hydrogen])
    have gL0 := getL_weight lithium.CN 0 tL 0 (by simp [lithium])
    have gL1 := getL_weight lithium.CN 0 tL 1 (by simp [lithium])
    rw [show hydrogen.CN.getD 0 0 = 0.9118 from rfl, wH0] at gH0
    rw [show hydrogen.CN.getD 1 0 = 0 from rfl, wH1] at gH1
    rw [show lithium.CN.getD 0 0 = 0 from rfl, wL0] at gL0
    rw [show lithium.CN.getD 1 0 = 0.9865 from rfl, wL1] at gL1
    have hdata : pairC6data excerpt lithium hydrogen = [38.9448, 68.9391, 14.3165, 24.0573] := by
      simp [pairC6data, hydrogen, lithium, pairIndex, excerpt]
    have hl1 : (getL hydrogen.CN 0).length = 2 := by rw [getL_length]; rfl
    have hl2 : (getL lithium.CN 0).length = 2 := by rw [getL_length]; rfl
    show sandwich (getL lithium.CN 0) (pairC6data excerpt lithium hydrogen) (getL hydrogen.CN 0) = _
    rw [sandwich, hl1, hl2, hdata]
    simp only [Finset.sum_range_succ, Finset.sum_range_zero, gH0, gH1, gL0, gL1, element]
    norm_num
    field_simp
    ring
  · have hc : ∀ i j, excerpt.coeff (pairIndex i j) = excerpt.coeff (pairIndex i j) := fun _ _ => rfl
    simp only [C6interp]
    rw [show hydrogen.iCN.zip hydrogen.CN = [(0, 0.9118), (94, 0)] from rfl, show lithium.iCN.zip lithium.CN = [(2, 0), (95, 0.9865)] from rfl]
    simp only [List.map_cons, List.map_nil, List.sum_cons, List.sum_nil, wH0, wH1, wL0, wL1]
    have c1 : excerpt.coeff (pairIndex 0 2) = 38.9448 := by simp [pairIndex, excerpt]
    have c2 : excerpt.coeff (pairIndex 0 95) = 14.3165 := by simp [pairIndex, excerpt]
    have c3 : excerpt.coeff (pairIndex 94 2) = 68.9391 := by simp [pairIndex, excerpt]
    have c4 : excerpt.coeff (pairIndex 94 95) = 24.0573 := by simp [pairIndex, excerpt]
    rw [c1, c2, c3, c4]
    field_simp
    ring

/-- The property fails for pairs of elements with several references: the coefficients are written row by row into a matrix that is
stored column by column. A hydrogen and a lithium atom 100.5 bohrs apart, far from each other's coordination shell, get less than
a third of the published energy, with the coefficients of the table. -/
theorem C106_coefficients_fails : ∃ (p : Params 2) (pos : Fin 2 → V3 ℝ), Valid p ∧
    (∀ a, ((10 : ℝ) ^ 40)⁻¹ ≤ ((p.atom a).CN.map fun c => Real.exp (-4 * (coordination p pos a - c) ^ 2)).sum) ∧
    ∀ P, 0 < P → ∀ out, energyAndGrad P p pos = some out → total p pos < 3 * out.E ∧ out.E < 0 := by
  refine ⟨pair, D2.alongX (1 / 2), pair_valid, ?_, ?_⟩
  · intro a
    have ht : ((10 : ℝ) ^ 40)⁻¹ ≤ 1 := inv_le_one_of_one_le₀ (by norm_num)
    rw [pair_coordination]
    refine ht.trans ?_
    have hp1 := Real.exp_pos (-4 * (0 - 0.9118 : ℝ) ^ 2)
    have hp2 := Real.exp_pos (-4 * (0 - 0.9865 : ℝ) ^ 2)
    match a with
    | 0 => simp [pair, hydrogen]; positivity
    | 1 => simp [pair, lithium]; positivity
  · intro P hP out h
    rw [energyAndGrad_eq P hP pair pair_valid] at h
    obtain rfl := Option.some.inj h
    have hc : cnQ pair (reach pair rCutCN) (table pair.R (D2.alongX (1 / 2))) = fun _ => 0 := by
      rw [← pair_coordination]; exact funext fun c => cnQ_eq pair _ c
    obtain ⟨e, d, he, he', hd, hd', h01, h10, hI⟩ := pair_coefficients
    have w : D2.cellWeight 0 = 1 / 2 := by simp [D2.cellWeight]; norm_num
    have hsym : pairA 1 0 = pairA 0 1 := bareA_comm pair 1 0 _
    have hneg := pairA_neg 0 1
    have hE : (closed pair (D2.alongX (1 / 2))).E = C6pair pair (fun _ => 0) 0 1 * pairA 0 1 := by
      simp only [closed, eQ, aQ]
      rw [hc]
      simp only [pair_reach, half_zero, Finset.sum_singleton, Fin.sum_univ_two, w]
      rw [pairA_self 0 0 rfl, pairA_self 1 1 rfl, pair_other 0 1 (by decide), pair_other 1 0 (by decide)]
      show _ * (1 / 2 * 0) + _ * (1 / 2 * pairA 0 1) + (_ * (1 / 2 * pairA 1 0) + _ * (1 / 2 * 0)) = _
      rw [hsym, h10, h01]; ring
    have hT : total pair (D2.alongX (1 / 2)) = C6interp excerpt hydrogen lithium 0 0 * pairA 0 1 := by
      rw [total_bare pair pair_valid]
      simp only [pair_coordination, pair_reach, cells_zero, Finset.sum_singleton, Fin.sum_univ_two]
      rw [pairA_self 0 0 rfl, pairA_self 1 1 rfl, pair_other 0 1 (by decide), pair_other 1 0 (by decide)]
      have hswap : C6interp excerpt lithium hydrogen 0 0 = C6interp excerpt hydrogen lithium 0 0 :=
        interp_comm excerpt lithium hydrogen rfl rfl 0 0
      show 1 / 2 * (_ * 0 + C6interp excerpt hydrogen lithium 0 0 * pairA 0 1 + (C6interp excerpt lithium hydrogen 0 0 * pairA 1 0 + _ * 0)) = _
      rw [hsym, hswap]; ring
    have hC := C6pair_pos pair pair_valid (fun _ => 0) 0 1
    refine ⟨?_, by rw [hE]; exact mul_neg_of_pos_of_neg hC hneg⟩
    rw [hE, hT, ← mul_assoc]
    refine mul_lt_mul_of_neg_right ?_ hneg
    rw [h01, hI, ← mul_div_assoc]
    have hD : 0 < (e + 1) * (1 + d) := by positivity
    refine (div_lt_div_iff_of_pos_right hD).2 ?_
    have hed : e * d ≤ 0.01 := by nlinarith
    have hed' : 0 < e * d := mul_pos he hd
    linarith

/-! ## Lattices in a skewed basis -/

/-- One atom in a cell periodic in two directions. -/
def lone (R : Mat ℝ) : Params 1 where
  R := R
  lj := 0
  trunc := fun k => if k = 2 then true else false
  T := excerpt
  dampBJ := false
  s6 := 1
  sr6 := 1.217
  s8 := 0.722
  sr8 := 1
  atom := fun _ => hydrogen

/-- A rectangular lattice. -/
def straight : Mat ℝ := diag 10 1 1000
/-- The same lattice: a hundred times the first vector added to the second. -/
def skewed : Mat ℝ := fun i j => if i = 0 ∧ j = 1 then 1000 else diag 10 1 1000 i j

theorem straight_table (v : Fin 3 → Int) : table straight (fun _ _ => 0) v (0 : Fin 1) 0 = (10 * (v 0 : ℝ)) ^ 2 + (v 1 : ℝ) ^ 2 + (1000 * (v 2 : ℝ)) ^ 2 := by
  simp only [table, WS.lenSq, dot, mulMV, straight, diag, vec, sep, toR]; simp; ring

theorem skewed_table (v : Fin 3 → Int) : table skewed (fun _ _ => 0) v (0 : Fin 1) 0
    = (10 * (v 0 : ℝ) + 1000 * (v 1 : ℝ)) ^ 2 + (v 1 : ℝ) ^ 2 + (1000 * (v 2 : ℝ)) ^ 2 := by
  simp only [table, WS.lenSq, dot, mulMV, skewed, diag, vec, sep, toR]; simp; ring

/-- Counting function of the atom as a function of the squared distance. -/
def counted (s : ℝ) : ℝ := bareN (lone straight) 0 0 s

theorem counted_nonneg (s : ℝ) : 0 ≤ counted s := by unfold counted bareN; split <;> positivity

theorem lone_cn (R : Mat ℝ) : coordination (lone R) (fun _ _ => 0) 0 = ∑ v ∈ cells (reach (lone R) 50), counted (table R (fun _ _ => 0) v (0 : Fin 1) 0) := by
  unfold coordination
  rw [Fin.sum_univ_one, neighbours_eq]
  refine Finset.sum_congr rfl fun v _ => ?_
  rw [show (lone R).R = R from rfl]
  have hs := skip_iff R (fun _ _ => 0) v (0 : Fin 1) 0 50 (by norm_num)
  by_cases h : table R (fun _ _ => 0) v (0 : Fin 1) 0 ≠ 0 ∧ table R (fun _ _ => 0) v (0 : Fin 1) 0 ≤ 50 * 50
  · rw [if_neg (fun h' => hs.1 h' h)]
    unfold counted bareN
    rw [if_pos (show table R (fun _ _ => 0) v (0 : Fin 1) 0 ≠ 0 ∧ table R (fun _ _ => 0) v (0 : Fin 1) 0 ≤ rCutCN * rCutCN from h)]
    rfl
  · rw [if_pos (hs.2 h)]
    unfold counted bareN
    rw [if_neg (show ¬ (table R (fun _ _ => 0) v (0 : Fin 1) 0 ≠ 0 ∧ table R (fun _ _ => 0) v (0 : Fin 1) 0 ≤ rCutCN * rCutCN) from h)]

theorem skewed_reach : reach (lone skewed) 50 = vec 5 1 0 := by
  funext k
  match k with
  | 0 =>
    have hl : Basis.length (column skewed 0) = 10 := by
      have e : Real.sqrt (10 * 10) = 10 := Real.sqrt_mul_self (by norm_num)
      simp [Basis.length, column, skewed, diag, vec, e]
    simp only [reach, lone, hl]
    rw [if_neg (by decide)]
    norm_num [vec, Nat.ceil_eq_iff]
  | 1 =>
    have hl : 1000 ≤ Basis.length (column skewed 1) := by
      have : Basis.length (column skewed 1) = Real.sqrt (1000 * 1000 + 1) := by simp [Basis.length, column, skewed, diag, vec]
      rw [this]
      exact Real.le_sqrt_of_sq_le (by norm_num)
    have h1 : 0 < 50 / Basis.length (column skewed 1) := by positivity
    have h2 : 50 / Basis.length (column skewed 1) ≤ 1 := by rw [div_le_one (by linarith)]; linarith
    have : ⌈50 / Basis.length (column skewed 1)⌉₊ = 1 := by
      rw [Nat.ceil_eq_iff (by norm_num)]
      refine ⟨?_, ?_⟩
      · simpa only [Nat.sub_self, Nat.cast_zero] using h1
      · simpa only [Nat.cast_one] using h2
    simp [reach, lone, vec, this]
  | 2 => simp [reach, lone, vec]

/-- Cells reached in the straight basis. -/
def many : Fin 3 → Nat := vec 5 50 0

theorem straight_reach : reach (lone straight) 50 = many := by
  unfold many
  funext k
  match k with
  | 0 =>
    have hl : Basis.length (column straight 0) = 10 := by
      have e : Real.sqrt (10 * 10) = 10 := Real.sqrt_mul_self (by norm_num)
      simp [Basis.length, column, straight, diag, vec, e]
    simp only [reach, lone, hl]
    rw [if_neg (by decide)]
    norm_num [vec, Nat.ceil_eq_iff]
  | 1 =>
    have hl : Basis.length (column straight 1) = 1 := by
      simp [Basis.length, column, straight, diag, vec]
    simp only [reach, lone, hl]
    rw [if_neg (by decide)]
    norm_num [vec, Nat.ceil_eq_iff]
  | 2 => simp [reach, lone, vec]

/-- Cells of the skewed basis with neighbours. -/
def few : Finset (Fin 3 → Int) := (cells (vec 5 1 0)).filter fun v => v 1 = 0
/-- The cell one step along the second vector. -/
def step1 : Fin 3 → Int := vec 0 1 0
/-- Neighbours counted in the straight basis. -/
def seen (v : Fin 3 → Int) : ℝ := counted (table straight (fun _ _ => 0) v (0 : Fin 1) 0)

theorem more (A C : Finset (Fin 3 → Int)) (w : Fin 3 → Int) (f : (Fin 3 → Int) → ℝ) (h1 : w ∉ A) (h2 : w ∈ C) (h3 : ∀ v ∈ A, v ∈ C)
    (h4 : ∀ v, 0 ≤ f v) (h5 : 0 < f w) : ∑ v ∈ A, f v < ∑ v ∈ C, f v :=
  Finset.sum_lt_sum_of_subset h3 h2 h1 h5 fun v _ _ => h4 v

theorem mem_cells (N : Fin 3 → Nat) (v : Fin 3 → Int) : v ∈ cells N ↔ ∀ k, -(N k : Int) ≤ v k ∧ v k ≤ N k := by
  simp [cells, Fintype.mem_piFinset]

theorem skewed_few : ∑ v ∈ cells (vec 5 1 0), counted (table skewed (fun _ _ => 0) v (0 : Fin 1) 0) = ∑ v ∈ few, seen v := by
  rw [few, Finset.sum_filter]
  refine Finset.sum_congr rfl fun v hv => ?_
  by_cases h0 : v 1 = 0
  · rw [if_pos h0]
    simp only [seen, skewed_table, straight_table, h0]
    congr 1; push_cast; ring
  · rw [if_neg h0, skewed_table]
    have b0 := (mem_cells _ v).1 hv 0
    have b1 := (mem_cells _ v).1 hv 1
    simp [vec] at b0 b1
    have hbig : (50 * 50 : ℝ) < (10 * (v 0 : ℝ) + 1000 * (v 1 : ℝ)) ^ 2 + (v 1 : ℝ) ^ 2 + (1000 * (v 2 : ℝ)) ^ 2 := by
      have c0 : (-5 : ℝ) ≤ v 0 := by exact_mod_cast b0.1
      have c1 : (v 0 : ℝ) ≤ 5 := by exact_mod_cast b0.2
      rcases (by omega : v 1 = 1 ∨ v 1 = -1) with h | h
      · rw [h]; push_cast; nlinarith [sq_nonneg (1000 * (v 2 : ℝ))]
      · rw [h]; push_cast; nlinarith [sq_nonneg (1000 * (v 2 : ℝ))]
    unfold counted bareN
    rw [if_neg (fun h => absurd h.2 (not_le.2 hbig))]

theorem step1_few : step1 ∉ few := by simp [few, step1, vec]

theorem m0 : many 0 = 5 ∧ many 1 = 50 ∧ many 2 = 0 := ⟨rfl, rfl, rfl⟩

attribute [local irreducible] many

theorem step1_many : step1 ∈ cells many := by
  rw [mem_cells]; intro k
  match k with
  | 0 => rw [m0.1]; simp [step1, vec]
  | 1 => rw [m0.2.1]; simp [step1, vec]
  | 2 => rw [m0.2.2]; simp [step1, vec]

theorem few_many : ∀ v ∈ few, v ∈ cells many := by
  intro v hv
  have hv' := (mem_cells _ v).1 (Finset.mem_filter.1 hv).1
  have h0 := (Finset.mem_filter.1 hv).2
  rw [mem_cells]; intro k
  match k with
  | 0 => rw [m0.1]; exact hv' 0
  | 1 => rw [m0.2.1, h0]; simp
  | 2 => rw [m0.2.2]; exact hv' 2

theorem step1_seen : 0 < seen step1 := by
  have : table straight (fun _ _ => 0) step1 (0 : Fin 1) 0 = 1 := by rw [straight_table]; simp [step1, vec]
  simp only [seen, this, counted, bareN]
  rw [if_pos (by norm_num [rCutCN])]
  positivity

theorem skewed_less : ∑ v ∈ cells (vec 5 1 0), counted (table skewed (fun _ _ => 0) v (0 : Fin 1) 0)
    < ∑ v ∈ cells many, counted (table straight (fun _ _ => 0) v (0 : Fin 1) 0) := by
  rw [skewed_few]
  exact more few (cells many) step1 seen step1_few step1_many few_many (fun v => counted_nonneg _) step1_seen

/-- The property fails in a skewed basis: neighbours within the cutoff are missed, because the number of cells in each direction is
derived from the length of the lattice vector instead of the distance between lattice planes. The two bases describe the same
lattice; an atom with neighbours 1 bohr away has a larger coordination number in the first. -/
theorem C106_skewed_fails : ∃ (R R' : Mat ℝ) (M : Fin 3 → Fin 3 → Int),
    det R ≠ 0 ∧ (∀ i j, R' i j = ∑ k, R i k * M k j) ∧ M 0 0 * M 1 1 * M 2 2 = 1 ∧ (∀ i j, j < i → M i j = 0) ∧
    ∀ P, 0 < P → ∀ cn cn', computeCN P (lone R) (fun _ _ => 0) = some cn → computeCN P (lone R') (fun _ _ => 0) = some cn' → cn' 0 < cn 0 := by
  refine ⟨straight, skewed, fun i j => if i = 0 ∧ j = 1 then 100 else if i = j then 1 else 0, ?_, ?_, by decide, by decide, ?_⟩
  · simp [straight, det, box, dot, cross, row, vec, diag]
  · intro i j
    simp only [Fin.sum_univ_three]
    match i, j with
    | 0, 0 => simp [straight, skewed, diag, vec]
    | 0, 1 => simp [straight, skewed, diag, vec]; norm_num
    | 0, 2 => simp [straight, skewed, diag, vec]
    | 1, 0 => simp [straight, skewed, diag, vec]
    | 1, 1 => simp [straight, skewed, diag, vec]
    | 1, 2 => simp [straight, skewed, diag, vec]
    | 2, 0 => simp [straight, skewed, diag, vec]
    | 2, 1 => simp [straight, skewed, diag, vec]
    | 2, 2 => simp [straight, skewed, diag, vec]
  · intro P hP cn cn' h h'
    rw [C106_coordination P hP] at h h'
    obtain rfl := Option.some.inj h
    obtain rfl := Option.some.inj h'
    rw [lone_cn, lone_cn, skewed_reach, straight_reach]
    exact skewed_less

/-! ## The hypotheses are met -/

/-- The hydrogen and lithium atoms in a periodic cell. -/
def crystal : Params 2 := { pair with trunc := fun _ => false }

theorem crystal_valid : Valid crystal := ⟨pair_valid.atoms, pair_valid.refs, pair_valid.coeff, pair_valid.sqrtQ, pair_valid.cut⟩

/-- Squared distances are multiples of a quarter of the squared lattice constant. -/
theorem crystal_table (v : Fin 3 → Int) (a b : Fin 2) : ∃ m : Int, 0 ≤ m ∧ table crystal.R (D2.alongX (1 / 2)) v a b = 40401 / 4 * m := by
  have e : table crystal.R (D2.alongX (1 / 2)) v a b = table pair.R (D2.alongX (1 / 2)) v a b := rfl
  obtain ⟨w, hw⟩ : ∃ w : Int, (v 0 : ℝ) + (D2.alongX (1 / 2) a 0 - D2.alongX (1 / 2) b 0) = w / 2 := by
    match a, b with
    | 0, 0 => exact ⟨2 * v 0, by simp [D2.alongX]⟩
    | 0, 1 => exact ⟨2 * v 0 - 1, by simp [D2.alongX]; ring⟩
    | 1, 0 => exact ⟨2 * v 0 + 1, by simp [D2.alongX]; ring⟩
    | 1, 1 => exact ⟨2 * v 0, by simp [D2.alongX]⟩
  refine ⟨w ^ 2 + 4 * v 1 ^ 2 + 4 * v 2 ^ 2, by positivity, ?_⟩
  rw [e, pair_table, hw]; push_cast; ring

theorem crystal_distance (v : Fin 3 → Int) (a b : Fin 2) :
    (distance crystal.R (D2.alongX (1 / 2)) v a b = 0 ∨ 100 < distance crystal.R (D2.alongX (1 / 2)) v a b) ∧
    distance crystal.R (D2.alongX (1 / 2)) v a b ≠ 200 := by
  obtain ⟨m, hm, ht⟩ := crystal_table v a b
  rw [distance_eq, ht]
  constructor
  · rcases hm.eq_or_lt with h | h
    · left; rw [← h]; simp
    · right
      have : (1 : ℝ) ≤ m := by exact_mod_cast h
      exact Real.lt_sqrt_of_sq_lt (by linarith)
  · intro h
    have h2 : Real.sqrt (40401 / 4 * m) ^ 2 = 200 ^ 2 := by rw [h]
    have hm' : (0 : ℝ) ≤ m := by exact_mod_cast hm
    rw [Real.sq_sqrt (by positivity)] at h2
    have : (40401 * m : ℝ) = 160000 := by linarith
    have : (40401 * m : Int) = 160000 := by exact_mod_cast this
    omega

theorem crystal_coordination (a : Fin 2) : coordination crystal (D2.alongX (1 / 2)) a = 0 := by
  unfold coordination
  refine Finset.sum_eq_zero fun b _ => Finset.sum_eq_zero fun v _ => ?_
  rw [if_pos]
  rcases (crystal_distance v a b).1 with h | h
  · left; exact h
  · right; linarith

example : Valid crystal ∧ det crystal.R ≠ 0 ∧ Apart (D2.alongX (1 / 2)) ∧ OffThreshold crystal (D2.alongX (1 / 2)) ∧
    (∀ k, crystal.trunc k = false → ∀ m : ℕ, rCut crystal / Basis.length (column crystal.R k) ≠ m ∧ 50 / Basis.length (column crystal.R k) ≠ m) ∧
    0 ≤ crystal.s6 ∧ 0 ≤ crystal.s8 := by
  have hc : rCut crystal = 200 := by simp [rCut, crystal, pair]
  have hl : ∀ k, Basis.length (column crystal.R k) = 201 := by
    have e : Real.sqrt (201 * 201) = 201 := Real.sqrt_mul_self (by norm_num)
    intro k
    match k with
    | 0 => simp [Basis.length, column, crystal, pair, diag, vec, e]
    | 1 => simp [Basis.length, column, crystal, pair, diag, vec, e]
    | 2 => simp [Basis.length, column, crystal, pair, diag, vec, e]
  have h2 : ∀ q : Int, (q : ℝ) ≠ 1 / 2 := by
    intro q h
    have : (2 * q : ℝ) = 1 := by linarith
    have : (2 * q : Int) = 1 := by exact_mod_cast this
    omega
  refine ⟨crystal_valid, by simp [crystal, pair, det, box, dot, cross, row, vec, diag], ?_, ⟨?_, ?_⟩, ?_, ?_, ?_⟩
  · intro a b hab m
    refine ⟨0, ?_⟩
    match a, b with
    | 0, 0 => exact absurd rfl hab
    | 1, 1 => exact absurd rfl hab
    | 0, 1 => simp only [D2.alongX]; intro h; norm_num at h; exact h2 (-(m 0)) (by push_cast; linarith)
    | 1, 0 => simp only [D2.alongX]; intro h; norm_num at h; exact h2 (m 0) (by linarith)
  · intro a b v
    rw [hc]
    refine ⟨(crystal_distance v a b).2, fun h => ?_⟩
    rcases (crystal_distance v a b).1 with h' | h' <;> rw [h] at h' <;> norm_num at h'
  · intro a h
    rw [crystal_coordination] at h
    have ht : ((10 : ℝ) ^ 40)⁻¹ < 1 := inv_lt_one_of_one_lt₀ (by norm_num)
    have hp1 := Real.exp_pos (-4 * (0 - 0.9118 : ℝ) ^ 2)
    have hp2 := Real.exp_pos (-4 * (0 - 0.9865 : ℝ) ^ 2)
    rw [← h] at ht
    match a with
    | 0 => simp [crystal, pair, hydrogen] at ht; norm_num at hp1; linarith
    | 1 => simp [crystal, pair, lithium] at ht; norm_num at hp2; linarith
  · intro k _ m
    rw [hl, hc]
    constructor <;> intro h
    · have : (200 : ℝ) = 201 * m := by linarith
      have : (200 : ℕ) = 201 * m := by exact_mod_cast this
      omega
    · have : (50 : ℝ) = 201 * m := by linarith
      have : (50 : ℕ) = 201 * m := by exact_mod_cast this
      omega
  · simp [crystal, pair]
  · simp only [crystal, pair]; norm_num

/-- Two hydrogen atoms in the same cell: the hypotheses of `C106_energy_partial` are met. -/
def dimer : Params 2 := { crystal with atom := fun _ => hydrogen }

example : Valid dimer ∧ (∀ a b, dimer.atom a = dimer.atom b ∨ (dimer.atom a).iCN.length = 1 ∨ (dimer.atom b).iCN.length = 1) ∧
    ∀ a, ((10 : ℝ) ^ 40)⁻¹ ≤ ((dimer.atom a).CN.map fun c => Real.exp (-4 * (coordination dimer (D2.alongX (1 / 2)) a - c) ^ 2)).sum := by
  refine ⟨⟨fun _ => ⟨1, hydrogen_ok⟩, fun _ => by simp [dimer, hydrogen], pair_valid.coeff, fun _ => by simp [dimer, hydrogen], le_refl _⟩,
    fun _ _ => Or.inl rfl, fun a => ?_⟩
  have hz : coordination dimer (D2.alongX (1 / 2)) a = 0 := by
    unfold coordination
    refine Finset.sum_eq_zero fun b _ => Finset.sum_eq_zero fun v _ => ?_
    rw [if_pos]
    rcases (crystal_distance v a b).1 with h | h
    · left; exact h
    · right; exact lt_trans (by norm_num) h
  rw [hz]
  have ht : ((10 : ℝ) ^ 40)⁻¹ ≤ 1 := inv_le_one_of_one_le₀ (by norm_num)
  refine ht.trans ?_
  have hp1 := Real.exp_pos (-4 * (0 - 0.9118 : ℝ) ^ 2)
  simp [dimer, hydrogen]; positivity

-- the weights of oxygen-like references far above the largest coordination number underflow
example : ∃ (CN : List ℝ) (x c : ℝ), 0 ≤ x ∧ (∀ c ∈ CN, 0 ≤ c ∧ c ≤ 4.7) ∧ c ∈ CN ∧ c + 0.9 ≤ CN.getD (maxElement CN) 0 ∧
    (CN.map fun c => Real.exp (-4 * (x - c) ^ 2)).sum < ((10 : ℝ) ^ 40)⁻¹ := by
  refine ⟨[0, 1], 7, 0, by norm_num, ?_, by simp, ?_, ?_⟩
  · intro c hc
    rcases List.mem_cons.1 hc with rfl | hc
    · norm_num
    · rw [List.mem_singleton.1 hc]; norm_num
  · norm_num [maxElement]
  · have h1 : Real.exp (-4 * (7 - 0) ^ 2) ≤ Real.exp (-100) := Real.exp_le_exp.2 (by norm_num)
    have h2 : Real.exp (-4 * (7 - 1) ^ 2) ≤ Real.exp (-100) := Real.exp_le_exp.2 (by norm_num)
    have h3 : Real.exp (-100) < ((10 : ℝ) ^ 41)⁻¹ := by
      rw [Real.exp_neg]
      refine inv_strictAnti₀ (by positivity) ?_
      have h1 : 2.7182818283 < Real.exp 1 := Real.exp_one_gt_d9
      have h2 : Real.exp 100 = Real.exp 1 ^ 100 := by rw [← Real.exp_nat_mul]; norm_num
      rw [h2]
      calc (10 : ℝ) ^ 41 < 2.7182818283 ^ 100 := by norm_num
        _ < Real.exp 1 ^ 100 := pow_lt_pow_left₀ h1 (by norm_num) (by norm_num)
    have h4 : 2 * ((10 : ℝ) ^ 41)⁻¹ < ((10 : ℝ) ^ 40)⁻¹ := by norm_num
    simp only [List.map_cons, List.map_nil, List.sum_cons, List.sum_nil]
    generalize ((10 : ℝ) ^ 41)⁻¹ = A at *
    generalize ((10 : ℝ) ^ 40)⁻¹ = B at *
    generalize Real.exp (-100) = C at *
    generalize Real.exp (-4 * (7 - 0) ^ 2) = D at *
    generalize Real.exp (-4 * (7 - 1) ^ 2) = E at *
    linarith

end
end Jdftx.D3
