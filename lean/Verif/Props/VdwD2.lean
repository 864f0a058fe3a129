import Verif.Lemmas.VdwD2

/-!
# C71: dispersion energy, forces and stress
-/
namespace Jdftx.D2
noncomputable section
open M3 Filter Topology Ewald

variable {n : Nat}

/-- The pair energy is the damped dispersion outside of the innermost region, where it is constant, and with the override
the Lennard-Jones energy up to the cutoff. -/
theorem C71_pair (C6 R0 r : ℝ) (hr : 0 < r) :
    (0 < R0 → 0.3000002494598603 ≤ r / R0 → pairE 0 C6 R0 r = dispersion C6 R0 r) ∧
    (0 < R0 → ∀ s, r / R0 < 0.3000002494598603 → s / R0 < 0.3000002494598603 → pairE 0 C6 R0 r = pairE 0 C6 R0 s) ∧
    (∀ lj, 0 < lj → r ≤ lj → pairE lj C6 R0 r = lennardJones C6 R0 r) ∧
    (∀ lj, 0 < lj → lj < r → pairE lj C6 R0 r = 0) := by
  refine ⟨fun hR h => ?_, fun hR s h hs => ?_, fun lj hlj h => ?_, fun lj hlj h => ?_⟩
  · rw [← mul_one_div] at h
    simp only [pairE, ne_eq, not_true_eq_false, if_false, if_neg (not_lt.2 h), dispersion]
    rw [div_pow, one_pow, mul_one_div, mul_one_div, mul_one_div]
  · rw [← mul_one_div] at h hs
    simp only [pairE, ne_eq, not_true_eq_false, if_false, if_pos h, if_pos hs]
  · simp only [pairE, if_pos hlj.ne', if_neg (not_lt.2 h), lennardJones]
    field_simp
    ring
  · simp only [pairE, if_pos hlj.ne', if_pos h]

theorem cells_eq (N : Fin 3 → Nat) : (Fintype.piFinset fun k => Finset.Icc (-(N k : Int)) (N k)) = cells N := rfl

theorem total_eq (p : Params n) (pos : Fin n → V3 ℝ) : total p pos = (closed p pos).E := by
  have e : ∀ a b v, p.scale * (if distance p pos v a b = 0 then 0
      else pairE p.lj (Real.sqrt (p.C6 a * p.C6 b)) (p.R0 a + p.R0 b) (distance p pos v a b))
        = bareE p a b (WS.lenSq p.R (sep v (pos a) (pos b))) := by
    intro a b v
    have hd : distance p pos v a b = Real.sqrt (WS.lenSq p.R (sep v (pos a) (pos b))) := rfl
    have hz : distance p pos v a b = 0 ↔ WS.lenSq p.R (sep v (pos a) (pos b)) = 0 := by
      rw [hd]; exact Real.sqrt_eq_zero (WS.lenSq_nonneg _ _)
    by_cases h : WS.lenSq p.R (sep v (pos a) (pos b)) = 0
    · rw [if_pos (hz.2 h), bareE, if_neg (not_not.2 h), mul_zero]
    · rw [if_neg (fun h' => h (hz.1 h')), bareE, if_pos h, hd]; rfl
  simp only [total, closed, ← e, ← Finset.mul_sum, cells_eq]
  ring

/-- On any number of processes, the call returns the dispersion energy of the specification: every pair of atoms counted
once, over all cells within reach. -/
theorem C71_energy (P : Nat) (hP : 0 < P) (p : Params n) (pos : Fin n → V3 ℝ) :
    ∃ out, energyAndGrad P p pos = some out ∧ out.E = total p pos :=
  ⟨_, energyAndGrad_eq P hP p pos, (total_eq p pos).symm⟩

/-- Energy, forces and stress do not depend on the number of processes. -/
theorem C71_processes (P Q : Nat) (hP : 0 < P) (hQ : 0 < Q) (p : Params n) (pos : Fin n → V3 ℝ) :
    energyAndGrad P p pos = energyAndGrad Q p pos := by
  rw [energyAndGrad_eq P hP, energyAndGrad_eq Q hQ]

theorem off_pair (p : Params n) (pos : Fin n → V3 ℝ) (h : OffThreshold p pos) (a b : Fin n) (v : Fin 3 → Int) :
    (p.lj ≠ 0 → Real.sqrt (WS.lenSq p.R (sep v (pos a) (pos b))) ≠ p.lj) ∧
    (p.lj = 0 → 0 < R0pair p a b ∧ Real.sqrt (WS.lenSq p.R (sep v (pos a) (pos b))) / R0pair p a b ≠ 0.3000002494598603) :=
  ⟨(h a b v).1, fun hl => ⟨add_pos ((h a b v).2 hl).1 ((h a b v).2 hl).2.1, ((h a b v).2 hl).2.2⟩⟩

/-- The force added to an atom is minus the derivative of the dispersion energy with respect to its position. -/
theorem C71_forces (P : Nat) (p : Params n) (hR : det p.R ≠ 0) (pos : Fin n → V3 ℝ) (hA : Apart pos) (hO : OffThreshold p pos)
    (out : Out n) (h : energyAndGrad P p pos = some out) (hP : 0 < P) (c : Fin n) (u : V3 ℝ) :
    HasDerivAt (fun t => total p (displace pos c u t)) (-dot (out.force c) u) 0 := by
  rw [energyAndGrad_eq P hP] at h
  obtain rfl := Option.some.inj h
  simp only [total_eq]
  have hterm : ∀ a b v, HasDerivAt (fun t => bareE p a b (WS.lenSq p.R (sep v (displace pos c u t a) (displace pos c u t b))))
      ((del c a - del c b) * (bareG p a b (WS.lenSq p.R (sep v (pos a) (pos b))) * WS.ip p.R (sep v (pos a) (pos b)) u)) 0 := by
    intro a b v
    by_cases hab : a = b
    · subst hab
      have e : (fun t => bareE p a a (WS.lenSq p.R (sep v (displace pos c u t a) (displace pos c u t a))))
          = fun _ => bareE p a a (WS.lenSq p.R (toR v)) := by
        funext t; congr 2; funext k; simp [sep]
      rw [e, sub_self, zero_mul]
      exact hasDerivAt_const _ _
    · have hpos : 0 < WS.lenSq p.R (sep v (pos a) (pos b)) := by
        refine WS.lenSq_pos p.R hR _ fun e => ?_
        obtain ⟨k, hk⟩ := hA a b hab (fun k => -v k)
        apply hk
        have := congrFun e k
        simp only [sep, toR, Pi.zero_apply] at this
        push_cast; linarith
      let x := sep v (pos a) (pos b)
      let d := del c a - del c b
      have hq : ∀ t, WS.lenSq p.R (sep v (displace pos c u t a) (displace pos c u t b))
          = WS.lenSq p.R x + t * (2 * d * WS.ip p.R x u) + t ^ 2 * (d ^ 2 * WS.lenSq p.R u) := by
        intro t
        have : sep v (displace pos c u t a) (displace pos c u t b) = fun k => x k - (-(t * d)) * u k := by
          funext k; simp only [sep, displace_eq, x, d]; ring
        rw [this, WS.lenSq_sub]
        simp only [WS.ip, dot]; ring
      have hd : HasDerivAt (fun t => WS.lenSq p.R (sep v (displace pos c u t a) (displace pos c u t b)))
          (2 * d * WS.ip p.R x u) 0 := by
        simp only [hq]
        have := (((hasDerivAt_id (0 : ℝ)).mul_const (2 * d * WS.ip p.R x u)).const_add (WS.lenSq p.R x)).add
          (((hasDerivAt_id (0 : ℝ)).pow 2).mul_const (d ^ 2 * WS.lenSq p.R u))
        refine this.congr_deriv ?_
        simp
      have h0 : WS.lenSq p.R (sep v (displace pos c u 0 a) (displace pos c u 0 b)) = WS.lenSq p.R x := by
        rw [displace_zero]
      have ho := off_pair p pos hO a b v
      refine (bareE_deriv p a b _ _ (by rw [h0]; exact hpos) hd (by rw [h0]; exact ho.1) (by rw [h0]; exact ho.2)).congr_deriv ?_
      rw [h0]
      simp only [x, d]; ring
  have hs := HasDerivAt.fun_sum fun a (_ : a ∈ (Finset.univ : Finset (Fin n))) =>
    HasDerivAt.fun_sum fun b (_ : b ∈ (Finset.univ : Finset (Fin n))) =>
      HasDerivAt.fun_sum fun v (_ : v ∈ cells (reach p)) => hterm a b v
  refine ((hs.const_mul (1 / 2)).neg).congr_deriv ?_
  rw [neg_inj]
  have e : ∀ a b v, (del c a - del c b) * (bareG p a b (WS.lenSq p.R (sep v (pos a) (pos b))) * WS.ip p.R (sep v (pos a) (pos b)) u)
      = dot (fun k => (del c a - del c b) * (bareG p a b (WS.lenSq p.R (sep v (pos a) (pos b))) * mulMV (WS.RTR p.R) (sep v (pos a) (pos b)) k)) u := by
    intro a b v
    rw [← WS.rtr_dot]; simp only [dot]; ring
  simp only [e, dot_sum]
  simp only [dot, closed]; ring

theorem ceil_eventually (f : ℝ → ℝ) (hf : ContinuousAt f 0) (h : ∀ m : ℕ, f 0 ≠ m) : ∀ᶠ t in 𝓝 (0 : ℝ), ⌈f t⌉₊ = ⌈f 0⌉₊ := by
  rcases lt_or_gt_of_ne (show f 0 ≠ 0 by simpa using h 0) with h0 | h0
  · filter_upwards [hf.eventually (gt_mem_nhds h0)] with t ht
    rw [Nat.ceil_eq_zero.2 (le_of_lt ht), Nat.ceil_eq_zero.2 h0.le]
  · have hc : ⌈f 0⌉₊ ≠ 0 := (Nat.ceil_pos.2 h0).ne'
    obtain ⟨h1, h2⟩ := (Nat.ceil_eq_iff hc).1 rfl
    have h3 : f 0 < ⌈f 0⌉₊ := lt_of_le_of_ne h2 (h _)
    filter_upwards [hf.eventually (lt_mem_nhds h1), hf.eventually (gt_mem_nhds h3)] with t ht1 ht2
    exact (Nat.ceil_eq_iff hc).2 ⟨ht1, ht2.le⟩

/-- A lattice vector does not vanish. -/
theorem length_pos (R : Mat ℝ) (hR : det R ≠ 0) (k : Fin 3) : 0 < Basis.length (column R k) := by
  refine Real.sqrt_pos.2 ?_
  have h := WS.lenSq_pos R hR (fun j => if j = k then 1 else 0) (fun h => by simpa using congrFun h k)
  have e : WS.lenSq R (fun j => if j = k then 1 else 0) = column R k 0 * column R k 0 + column R k 1 * column R k 1 + column R k 2 * column R k 2 := by
    match k with
    | 0 => simp [WS.lenSq, dot, mulMV, column, vec]
    | 1 => simp [WS.lenSq, dot, mulMV, column, vec]
    | 2 => simp [WS.lenSq, dot, mulMV, column, vec]
  rwa [e] at h

/-- The matrix returned is the derivative of the dispersion energy with respect to strain of the lattice. Strains at which
the number of cells within reach changes are excluded. -/
theorem C71_stress (P : Nat) (p : Params n) (hR : det p.R ≠ 0) (pos : Fin n → V3 ℝ) (hO : OffThreshold p pos)
    (hN : ∀ k, p.trunc k = false → ∀ m : ℕ, rCut p / Basis.length (column p.R k) ≠ m)
    (out : Out n) (h : energyAndGrad P p pos = some out) (hP : 0 < P) (e : Mat ℝ) :
    HasDerivAt (fun t => total { p with R := strained p.R e t } pos) (contract out.stress e) 0 := by
  rw [energyAndGrad_eq P hP] at h
  obtain rfl := Option.some.inj h
  have hreach : ∀ᶠ t in 𝓝 (0 : ℝ), reach { p with R := strained p.R e t } = reach p := by
    have : ∀ k, ∀ᶠ t in 𝓝 (0 : ℝ), reach { p with R := strained p.R e t } k = reach p k := by
      intro k
      cases hk : p.trunc k with
      | true => exact Eventually.of_forall fun t => by simp [reach, hk]
      | false =>
        have hl : ContinuousAt (fun t => Basis.length (column (strained p.R e t) k)) 0 := by
          simp only [Basis.length, column, vec, strained]
          fun_prop
        have hl0 : Basis.length (column (strained p.R e 0) k) ≠ 0 := by
          rw [strained_zero]; exact (length_pos p.R hR k).ne'
        have := ceil_eventually (fun t => rCut p / Basis.length (column (strained p.R e t) k)) (continuousAt_const.div hl hl0)
          (by simp only [strained_zero]; exact hN k hk)
        filter_upwards [this] with t ht
        simp only [strained_zero] at ht
        simp only [reach, hk]
        exact ht
    filter_upwards [eventually_all.2 this] with t ht
    exact funext ht
  have hterm : ∀ a b v, HasDerivAt (fun t => bareE p a b (WS.lenSq (strained p.R e t) (sep v (pos a) (pos b))))
      (bareG p a b (WS.lenSq p.R (sep v (pos a) (pos b))) *
        contract (outer (mulMV p.R (sep v (pos a) (pos b))) (mulMV p.R (sep v (pos a) (pos b)))) e) 0 := by
    intro a b v
    let x := sep v (pos a) (pos b)
    show HasDerivAt (fun t => bareE p a b (WS.lenSq (strained p.R e t) x)) (bareG p a b (WS.lenSq p.R x) * contract (outer (mulMV p.R x) (mulMV p.R x)) e) 0
    by_cases hx : x = 0
    · have h0 : ∀ R : Mat ℝ, WS.lenSq R x = 0 := by intro R; rw [hx]; simp [WS.lenSq, dot, mulMV]
      simp only [h0, bareG]
      simp only [ne_eq, not_true_eq_false, if_false, zero_mul]
      exact hasDerivAt_const _ _
    · have hpos := WS.lenSq_pos p.R hR x hx
      let r := mulMV p.R x
      have hq : ∀ t, WS.lenSq (strained p.R e t) x
          = WS.lenSq p.R x + t * (2 * dot r (mulMV e r)) + t ^ 2 * dot (mulMV e r) (mulMV e r) := by
        intro t; simp only [WS.lenSq, strained, dot, mulMV, r]; ring
      have hd : HasDerivAt (fun t => WS.lenSq (strained p.R e t) x) (2 * dot r (mulMV e r)) 0 := by
        simp only [hq]
        have h := hasDerivAt_id (0 : ℝ)
        exact (((h.mul_const _).const_add _).add ((h.pow 2).mul_const _)).congr_deriv (by simp)
      have ho := off_pair p pos hO a b v
      refine (bareE_deriv p a b _ _ (by rw [strained_zero]; exact hpos) hd (by rw [strained_zero]; exact ho.1)
        (by rw [strained_zero]; exact ho.2)).congr_deriv ?_
      rw [strained_zero]
      have : contract (outer (mulMV p.R x) (mulMV p.R x)) e = dot r (mulMV e r) := by
        simp only [contract_eq, outer, dot, mulMV, r]; ring
      rw [this]; ring
  have hs := HasDerivAt.fun_sum fun a (_ : a ∈ (Finset.univ : Finset (Fin n))) =>
    HasDerivAt.fun_sum fun b (_ : b ∈ (Finset.univ : Finset (Fin n))) =>
      HasDerivAt.fun_sum fun v (_ : v ∈ cells (reach p)) => hterm a b v
  refine HasDerivAt.congr_of_eventuallyEq (((hs.const_mul (1 / 2)).neg).congr_deriv ?_) ?_
  · have e1 : ∀ a b v, bareG p a b (WS.lenSq p.R (sep v (pos a) (pos b))) *
        contract (outer (mulMV p.R (sep v (pos a) (pos b))) (mulMV p.R (sep v (pos a) (pos b)))) e
        = contract (fun i j => bareG p a b (WS.lenSq p.R (sep v (pos a) (pos b))) *
          outer (mulMV p.R (sep v (pos a) (pos b))) (mulMV p.R (sep v (pos a) (pos b))) i j) e := by
      intro a b v; simp only [contract_eq]; ring
    simp only [e1, contract_sum]
    simp only [contract_eq, closed]; ring
  · filter_upwards [hreach] with t ht
    simp only [total_eq, closed, ht]
    rfl

/-- The forces add up to zero. -/
theorem C71_momentum (P : Nat) (hP : 0 < P) (p : Params n) (pos : Fin n → V3 ℝ) (out : Out n)
    (h : energyAndGrad P p pos = some out) (k : Fin 3) : ∑ c, out.force c k = 0 := by
  rw [energyAndGrad_eq P hP] at h
  obtain rfl := Option.some.inj h
  simp only [closed]
  rw [← Finset.mul_sum, Finset.sum_comm]
  have : ∀ a : Fin n, ∑ c, ∑ b, ∑ v ∈ cells (reach p), (del c a - del c b) *
      (bareG p a b (WS.lenSq p.R (sep v (pos a) (pos b))) * mulMV (WS.RTR p.R) (sep v (pos a) (pos b)) k) = 0 := by
    intro a
    rw [Finset.sum_comm]
    refine Finset.sum_eq_zero fun b _ => ?_
    rw [Finset.sum_comm]
    refine Finset.sum_eq_zero fun v _ => ?_
    rw [← Finset.sum_mul]
    have : ∑ c, (del c a - del c b) = 0 := by
      rw [Finset.sum_sub_distrib]
      simp [del]
    rw [this, zero_mul]
  rw [Finset.sum_eq_zero fun a _ => this a, mul_zero]

/-- Two atoms in a cubic cell of 20 bohrs, truncated in all directions. -/
def twoAtoms : Params 2 := { R := diag 20 20 20, lj := 0, scale := 1, trunc := fun _ => true, C6 := fun _ => 1, R0 := fun _ => 1 / 2 }
/-- One atom at the origin, the other at `x` along the first direction. -/
def alongX (x : ℝ) : Fin 2 → V3 ℝ := fun a k => if a = 1 ∧ k = 0 then x else 0

theorem twoAtoms_lenSq (x : V3 ℝ) : WS.lenSq twoAtoms.R x = 400 * (x 0 * x 0 + x 1 * x 1 + x 2 * x 2) := by
  simp [WS.lenSq, dot, mulMV, twoAtoms, diag, vec]; ring

theorem twoAtoms_distance (x : ℝ) (hx : 0 < x) :
    distance twoAtoms (alongX x) 0 0 1 = 20 * x ∧ distance twoAtoms (alongX x) 0 1 0 = 20 * x ∧
    distance twoAtoms (alongX x) 0 0 0 = 0 ∧ distance twoAtoms (alongX x) 0 1 1 = 0 := by
  have e : Real.sqrt (400 * (x * x)) = 20 * x := by
    rw [show 400 * (x * x) = (20 * x) * (20 * x) by ring]; exact Real.sqrt_mul_self (by positivity)
  refine ⟨?_, ?_, ?_, ?_⟩ <;> simp [distance, twoAtoms_lenSq, alongX, e]

theorem twoAtoms_total (x : ℝ) (hx : 1 / 20 ≤ x) : total twoAtoms (alongX x) = -dispersion 1 1 (20 * x) := by
  have hx0 : 0 < x := by linarith
  obtain ⟨h1, h2, h3, h4⟩ := twoAtoms_distance x hx0
  have hc : (Fintype.piFinset fun k : Fin 3 => Finset.Icc (-(reach twoAtoms k : Int)) (reach twoAtoms k)) = {0} := by
    have : ∀ k, reach twoAtoms k = 0 := fun k => by simp [reach, twoAtoms]
    simp only [this]
    ext v
    simp only [Fintype.mem_piFinset, Finset.mem_Icc, Finset.mem_singleton]
    constructor
    · intro h; funext k; have := h k; simp at this; simpa using le_antisymm this.2 this.1
    · intro h k; rw [h]; simp
  have hp := (C71_pair 1 1 (20 * x) (by positivity)).1 one_pos (by norm_num; linarith)
  simp only [total, hc, Finset.sum_singleton, Fin.sum_univ_two, h1, h2, h3, h4, if_true]
  have hne : ¬ (20 * x = 0) := by positivity
  simp only [if_neg hne]
  have e1 : Real.sqrt (twoAtoms.C6 0 * twoAtoms.C6 1) = 1 ∧ Real.sqrt (twoAtoms.C6 1 * twoAtoms.C6 0) = 1 := by simp [twoAtoms]
  have e2 : twoAtoms.R0 0 + twoAtoms.R0 1 = 1 ∧ twoAtoms.R0 1 + twoAtoms.R0 0 = 1 := by simp [twoAtoms]; norm_num
  rw [e1.1, e1.2, e2.1, e2.2, show twoAtoms.lj = 0 from rfl, show twoAtoms.scale = 1 from rfl, hp]
  ring

/-- The property fails: moving an atom by a lattice vector, which gives the same crystal, can change the energy. Here two
atoms 2 bohrs apart are described once with the coordinates 0 and 0.1, once with 0 and 1.1: positions are not reduced to one
cell before the sum, and in truncated directions no neighbouring cell is tried. -/
theorem C71_images_violation : ∃ (p : Params 2) (pos pos' : Fin 2 → V3 ℝ),
    det p.R ≠ 0 ∧ (∀ a k, ∃ m : Int, pos' a k = pos a k + m) ∧
    ∀ P, 0 < P → ∀ out out', energyAndGrad P p pos = some out → energyAndGrad P p pos' = some out' → out.E < out'.E := by
  refine ⟨twoAtoms, alongX (1 / 10), alongX (11 / 10), ?_, ?_, ?_⟩
  · simp [twoAtoms, det, box, dot, cross, row, vec, diag]
  · intro a k
    by_cases h : a = 1 ∧ k = 0
    · exact ⟨1, by simp only [alongX, if_pos h]; norm_num⟩
    · exact ⟨0, by simp only [alongX, if_neg h]; norm_num⟩
  · intro P hP out out' h h'
    rw [energyAndGrad_eq P hP] at h h'
    obtain rfl := Option.some.inj h
    obtain rfl := Option.some.inj h'
    rw [← total_eq, ← total_eq, twoAtoms_total _ (by norm_num), twoAtoms_total _ (by norm_num)]
    rw [neg_lt_neg_iff]
    simp only [dispersion]
    have h1 : Real.exp (-20 * (20 * (1 / 10) / 1 - 1)) ≤ 1 := Real.exp_le_one_iff.2 (by norm_num)
    have h2 : 0 < Real.exp (-20 * (20 * (11 / 10) / 1 - 1)) := Real.exp_pos _
    have h3 : 0 < Real.exp (-20 * (20 * (1 / 10) / 1 - 1)) := Real.exp_pos _
    generalize Real.exp (-20 * (20 * (1 / 10) / 1 - 1)) = E1 at *
    generalize Real.exp (-20 * (20 * (11 / 10) / 1 - 1)) = E2 at *
    rw [div_lt_div_iff₀ (by linarith) (by linarith)]
    norm_num
    nlinarith

/-- The same two atoms in a periodic cubic cell of 30 bohrs. -/
def crystal : Params 2 := { twoAtoms with R := diag 30 30 30, trunc := fun _ => false }

theorem alongX_apart : Apart (alongX (1 / 10)) := by
  have h10 : ∀ q : Int, (q : ℝ) ≠ 1 / 10 := by
    intro q h
    have : (10 * q : ℝ) = 1 := by linarith
    have : (10 * q : Int) = 1 := by exact_mod_cast this
    omega
  intro a b hab m
  refine ⟨0, ?_⟩
  match a, b with
  | 0, 0 => exact absurd rfl hab
  | 1, 1 => exact absurd rfl hab
  | 0, 1 => simp [alongX]; intro h; exact h10 (-(m 0)) (by push_cast; linarith)
  | 1, 0 => simp [alongX]; intro h; exact h10 (m 0) (by linarith)

theorem crystal_off : OffThreshold crystal (alongX (1 / 10)) := by
  have hL : ∀ x : V3 ℝ, WS.lenSq crystal.R x = 900 * (x 0 * x 0 + x 1 * x 1 + x 2 * x 2) := by
    intro x; simp [WS.lenSq, dot, mulMV, crystal, diag, vec]; ring
  have hq : ∀ y : Int, y * y = 0 ∨ 1 ≤ y * y := by
    intro y
    rcases eq_or_ne y 0 with rfl | h
    · left; rfl
    · right; have := mul_self_pos.2 h; omega
  intro a b v
  refine ⟨fun h => absurd rfl h, fun _ => ⟨by norm_num [crystal, twoAtoms], by norm_num [crystal, twoAtoms], fun h => ?_⟩⟩
  have hR : crystal.R0 a + crystal.R0 b = 1 := by simp [crystal, twoAtoms]; norm_num
  rw [hR, div_one, distance, hL] at h
  -- ten times the separations are integers
  obtain ⟨w, hw⟩ : ∃ w : Int, (v 0 : ℝ) + (alongX (1 / 10) a 0 - alongX (1 / 10) b 0) = w / 10 := by
    match a, b with
    | 0, 0 => exact ⟨10 * v 0, by simp [alongX]⟩
    | 0, 1 => exact ⟨10 * v 0 - 1, by simp [alongX]; ring⟩
    | 1, 0 => exact ⟨10 * v 0 + 1, by simp [alongX]; ring⟩
    | 1, 1 => exact ⟨10 * v 0, by simp [alongX]⟩
  have h1 : (v 1 : ℝ) + (alongX (1 / 10) a 1 - alongX (1 / 10) b 1) = v 1 := by simp [alongX]
  have h2 : (v 2 : ℝ) + (alongX (1 / 10) a 2 - alongX (1 / 10) b 2) = v 2 := by simp [alongX]
  simp only [hw, h1, h2] at h
  have key : 900 * ((w / 10 : ℝ) * (w / 10) + v 1 * v 1 + v 2 * v 2) = ((9 * (w * w + 100 * (v 1 * v 1) + 100 * (v 2 * v 2)) : Int) : ℝ) := by
    push_cast; ring
  rw [key] at h
  have hm : w * w + 100 * (v 1 * v 1) + 100 * (v 2 * v 2) = 0 ∨ 1 ≤ w * w + 100 * (v 1 * v 1) + 100 * (v 2 * v 2) := by
    rcases hq w with a1 | a1 <;> rcases hq (v 1) with a2 | a2 <;> rcases hq (v 2) with a3 | a3 <;> omega
  generalize w * w + 100 * (v 1 * v 1) + 100 * (v 2 * v 2) = m at h hm
  rcases hm with rfl | hm
  · norm_num at h
  · have : (1 : ℝ) ≤ Real.sqrt ((9 * m : Int) : ℝ) := by
      rw [Real.one_le_sqrt]
      have : (1 : ℤ) ≤ 9 * m := by omega
      exact_mod_cast this
    rw [h] at this; norm_num at this

example : det crystal.R ≠ 0 ∧ Apart (alongX (1 / 10)) ∧ OffThreshold crystal (alongX (1 / 10)) ∧
    (∀ k, crystal.trunc k = false → ∀ m : ℕ, rCut crystal / Basis.length (column crystal.R k) ≠ m) ∧
    ∀ k, reach crystal k = 7 := by
  have hl : ∀ k, Basis.length (column crystal.R k) = 30 := by
    have e : Real.sqrt (30 * 30) = 30 := Real.sqrt_mul_self (by norm_num)
    intro k
    match k with
    | 0 => simp [Basis.length, column, crystal, diag, vec, e]
    | 1 => simp [Basis.length, column, crystal, diag, vec, e]
    | 2 => simp [Basis.length, column, crystal, diag, vec, e]
  have hr : rCut crystal = 200 := by simp [rCut, crystal, twoAtoms]
  refine ⟨by simp [crystal, det, box, dot, cross, row, vec, diag], alongX_apart, crystal_off, ?_, ?_⟩
  · intro k _ m h
    rw [hl, hr] at h
    have : (20 : ℝ) = 3 * m := by linarith
    have : (20 : ℕ) = 3 * m := by exact_mod_cast this
    omega
  · intro k
    have : crystal.trunc k = false := rfl
    simp only [reach, this, hl, hr]
    norm_num [Nat.ceil_eq_iff]

end
end Jdftx.D2
