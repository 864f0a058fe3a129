import Verif.Lemmas.VdwD3

/-!
# Lemmas for C106: the results in closed form
-/
namespace Jdftx.D3
noncomputable section
open M3 Filter Topology Ewald

variable {n : Nat}

/-- Number of neighbouring cells on each side. -/
def reach (p : Params n) (rc : ℝ) (k : Fin 3) : Nat := if p.trunc k then 0 else ⌈rc / Basis.length (column p.R k)⌉₊

/-- The cells visited by the loops. -/
def half (N : Fin 3 → Nat) : Finset (Fin 3 → Int) := (cells N).filter (fun v => 0 ≤ v 2)

/-- Same lattice and cutoff for the lemmas of C71. -/
def toD2 (p : Params n) (rc : ℝ) : D2.Params 0 :=
  { R := p.R, lj := rc, scale := 0, trunc := p.trunc, C6 := fun _ => 0, R0 := fun _ => 0 }

theorem toD2_reach (p : Params n) (rc : ℝ) (h : rc ≠ 0) : D2.reach (toD2 p rc) = reach p rc := by
  funext k; simp [D2.reach, reach, D2.rCut, toD2, h]

theorem toD2_S (p : Params n) (rc : ℝ) (h : rc ≠ 0) : D2.S (toD2 p rc) = S p rc := by
  simp [D2.S, S, D2.size1, size1, D2.rCut, toD2, h]

/-- All processes together visit each cell of the half box once. -/
theorem ranges_eq (P : Nat) (hP : 0 < P) (p : Params n) (rc : ℝ) (h : rc ≠ 0) : ∃ tds, ranges P p rc = some tds ∧
    ∀ f : (Fin 3 → Int) → ℝ, (tds.map fun td => ((Box.hLoop (S p rc) td.startMine td.stopMine).map fun q => f (D2.cell q.2)).sum).sum
      = ∑ v ∈ half (reach p rc), f v := by
  obtain ⟨tds, h1, h2⟩ := D2.sum_processes (toD2 p rc) P hP
  rw [toD2_S p rc h] at h1 h2
  refine ⟨tds, h1, fun f => ?_⟩
  rw [h2 (fun v => f (D2.cell v))]
  have := D2.sum_half (toD2 p rc) f
  rw [toD2_S p rc h, toD2_reach p rc h] at this
  exact this

theorem sum_pairs {α : Type} (tds : List α) (F : α → Fin n → Fin n → ℝ) :
    (tds.map fun td => ∑ a, ∑ b, F td a b).sum = ∑ a, ∑ b, (tds.map fun td => F td a b).sum := by
  rw [D2.sum_list_finset]
  exact Finset.sum_congr rfl fun a _ => D2.sum_list_finset _ _ _

theorem sum_lin {α : Type} (l : List α) (f g : α → ℝ) (A B : ℝ) :
    (l.map fun t => A * f t + B * g t).sum = A * (l.map f).sum + B * (l.map g).sum := by
  induction l with
  | nil => simp
  | cons a l ih => simp only [List.map_cons, List.sum_cons, ih]; ring

theorem rCut_ne (p : Params n) : rCut p ≠ 0 := by
  unfold rCut; split
  · assumption
  · norm_num

theorem rCut_pos (p : Params n) (h : 0 ≤ p.lj) : 0 < rCut p := by
  unfold rCut; split
  · rename_i h'; exact lt_of_le_of_ne h (Ne.symm h')
  · norm_num

/-! ## Functions of the squared distance -/

open Classical in
/-- Contribution of a neighbour to a coordination number. -/
def bareN (p : Params n) (a b : Fin n) (s : ℝ) : ℝ :=
  if s ≠ 0 ∧ s ≤ rCutCN * rCutCN then 1 / (1 + Real.exp (-k1 * (k2RcovSum p a b / Real.sqrt s - 1))) else 0

open Classical in
/-- Its derivative divided by the distance. -/
def bareNG (p : Params n) (a b : Fin n) (s : ℝ) : ℝ :=
  if s ≠ 0 ∧ s ≤ rCutCN * rCutCN then
    (-(1 / Real.sqrt s) * (Real.exp (-k1 * (k2RcovSum p a b * (1 / Real.sqrt s) - 1)) * k1 * (k2RcovSum p a b * (1 / Real.sqrt s) * (1 / Real.sqrt s))))
      / (1 + Real.exp (-k1 * (k2RcovSum p a b * (1 / Real.sqrt s) - 1))) ^ 2
  else 0

open Classical in
/-- Energy of a pair up to the coefficient of sixth order. -/
def bareA (p : Params n) (a b : Fin n) (s : ℝ) : ℝ :=
  if s ≠ 0 ∧ s ≤ rCut p * rCut p then
    -(p.s6 * term6 p (radius p a b) (Real.sqrt s) + ratio p a b * p.s8 * term8 p (radius p a b) (Real.sqrt s)) else 0

open Classical in
/-- Its derivative divided by the distance. -/
def bareAG (p : Params n) (a b : Fin n) (s : ℝ) : ℝ :=
  if s ≠ 0 ∧ s ≤ rCut p * rCut p then
    -(1 / Real.sqrt s) * (p.s6 * term6_r p (radius p a b) (Real.sqrt s) + ratio p a b * p.s8 * term8_r p (radius p a b) (Real.sqrt s)) else 0

/-- Coordination numbers from a table of squared distances. -/
def cnQ (p : Params n) (N : Fin 3 → Nat) (Q : (Fin 3 → Int) → Fin n → Fin n → ℝ) (c : Fin n) : ℝ :=
  ∑ a, ∑ b, ∑ v ∈ half N, (del c a + del c b) * (D2.cellWeight v * bareN p a b (Q v a b))

/-- Energy of a pair up to the coefficient of sixth order, from a table of squared distances. -/
def aQ (p : Params n) (N : Fin 3 → Nat) (Q : (Fin 3 → Int) → Fin n → Fin n → ℝ) (a b : Fin n) : ℝ :=
  ∑ v ∈ half N, D2.cellWeight v * bareA p a b (Q v a b)

/-- Energy from a table of squared distances. -/
def eQ (p : Params n) (N NC : Fin 3 → Nat) (Q : (Fin 3 → Int) → Fin n → Fin n → ℝ) : ℝ :=
  ∑ a, ∑ b, C6pair p (cnQ p NC Q) a b * aQ p N Q a b

/-- Derivative of the coefficient of a pair with respect to the coordination number of the first atom. -/
def d1 (p : Params n) (CN : Fin n → ℝ) (a b : Fin n) : ℝ :=
  sandwich (getLprime (p.atom a).CN (CN a)) (pairC6data p.T (p.atom a) (p.atom b)) (getL (p.atom b).CN (CN b))
/-- Derivative of the coefficient of a pair with respect to the coordination number of the second atom. -/
def d2 (p : Params n) (CN : Fin n → ℝ) (a b : Fin n) : ℝ :=
  sandwich (getL (p.atom a).CN (CN a)) (pairC6data p.T (p.atom a) (p.atom b)) (getLprime (p.atom b).CN (CN b))

/-- Derivative of the energy with respect to a coordination number. -/
def ecnQ (p : Params n) (CN : Fin n → ℝ) (A : Fin n → Fin n → ℝ) (c : Fin n) : ℝ :=
  ∑ a, ∑ b, (del c a * d1 p CN a b + del c b * d2 p CN a b) * A a b

/-- Table of squared distances. -/
def table (R : Mat ℝ) (pos : Fin n → V3 ℝ) (v : Fin 3 → Int) (a b : Fin n) : ℝ := WS.lenSq R (sep v (pos a) (pos b))

/-- The results in closed form. -/
def closed (p : Params n) (pos : Fin n → V3 ℝ) : Out n :=
  let N := reach p (rCut p)
  let NC := reach p rCutCN
  let Q := table p.R pos
  let CN := cnQ p NC Q
  let ecn := ecnQ p CN (aQ p N Q)
  { E := eQ p N NC Q
    force := fun c k => (∑ a, ∑ b, ∑ v ∈ half N, (del c b - del c a) *
        (D2.cellWeight v * (C6pair p CN a b * bareAG p a b (Q v a b)) * mulMV (WS.RTR p.R) (sep v (pos a) (pos b)) k))
      + ∑ a, ∑ b, ∑ v ∈ half NC, (del c b - del c a) *
        (D2.cellWeight v * ((ecn a + ecn b) * bareNG p a b (Q v a b)) * mulMV (WS.RTR p.R) (sep v (pos a) (pos b)) k)
    stress := fun i j => (∑ a, ∑ b, ∑ v ∈ half N,
        D2.cellWeight v * (C6pair p CN a b * bareAG p a b (Q v a b)) * outer (mulMV p.R (sep v (pos a) (pos b))) (mulMV p.R (sep v (pos a) (pos b))) i j)
      + ∑ a, ∑ b, ∑ v ∈ half NC,
        D2.cellWeight v * ((ecn a + ecn b) * bareNG p a b (Q v a b)) * outer (mulMV p.R (sep v (pos a) (pos b))) (mulMV p.R (sep v (pos a) (pos b))) i j }

/-! ## The loops -/

theorem rSq_eq (p : Params n) (pos : Fin n → V3 ℝ) (v : Fin 3 → Int) (a b : Fin n) :
    rSq p (sep v (pos a) (pos b)) = table p.R pos v a b := WS.metric_lenSq p.R _

theorem turnCN_eq (p : Params n) (pos : Fin n → V3 ℝ) (a b : Fin n) (v : Fin 3 → Int) :
    turnCN p pos a b v = D2.cellWeight v * bareN p a b (table p.R pos v a b) := by
  simp only [turnCN, bareN, rSq_eq]
  by_cases h : table p.R pos v a b ≠ 0 ∧ table p.R pos v a b ≤ rCutCN * rCutCN
  · rw [if_pos h, if_pos h]; ring
  · rw [if_neg h, if_neg h, mul_zero]

theorem computeCN_eq (P : Nat) (hP : 0 < P) (p : Params n) (pos : Fin n → V3 ℝ) :
    computeCN P p pos = some (cnQ p (reach p rCutCN) (table p.R pos)) := by
  obtain ⟨tds, h1, h2⟩ := ranges_eq P hP p rCutCN (by norm_num [rCutCN])
  simp only [computeCN, h1, Option.bind_eq_bind, Option.bind_some]
  refine congrArg some (funext fun c => ?_)
  rw [sum_pairs]
  unfold cnQ
  refine Finset.sum_congr rfl fun a _ => Finset.sum_congr rfl fun b _ => ?_
  rw [← h2 (fun v => (del c a + del c b) * (D2.cellWeight v * bareN p a b (table p.R pos v a b)))]
  congr 2
  funext td
  congr 2
  funext q
  rw [turnCN_eq]
  simp only [del]
  split <;> split <;> ring

theorem valid_length (p : Params n) (h : Valid p) (a : Fin n) : (p.atom a).iCN.length = (p.atom a).CN.length := by
  obtain ⟨Z, hZ⟩ := h.atoms a
  unfold getAtomParams at hZ
  split at hZ
  · simp at hZ
  · rw [← Except.ok.inj hZ]; simp

theorem C6pair_pos (p : Params n) (h : Valid p) (CN : Fin n → ℝ) (a b : Fin n) : 0 < C6pair p CN a b :=
  sandwich_pos p.T h.coeff _ _ (h.refs a) (h.refs b) (valid_length p h a) (valid_length p h b) _ _

theorem pairR0_eq (T : Tables) (a1 a2 : AtomParams) : pairR0 T a1 a2 = pairRadius T a1 a2 := by
  unfold pairR0 pairRadius
  simp only
  have h1 : ∀ z : Int, (z - 1).toNat = z.toNat - 1 := fun z => by omega
  rw [h1, h1, Finset.sum_range_id]
  congr 3
  generalize (max a1.Z a2.Z).toNat = n
  cases n with
  | zero => rfl
  | succ n => rw [Nat.add_sub_cancel, Nat.mul_comm]

theorem R0pair_eq (p : Params n) (h : Valid p) (CN : Fin n → ℝ) (a b : Fin n) : R0pair p CN a b = radius p a b := by
  unfold R0pair radius C8pair
  rw [mul_comm (C6pair p CN a b), mul_div_cancel_right₀ _ (C6pair_pos p h CN a b).ne', ← pairR0_eq]
  rfl

theorem turn68_eq (p : Params n) (h : Valid p) (pos : Fin n → V3 ℝ) (CN : Fin n → ℝ) (a b : Fin n) (v : Fin 3 → Int) :
    D2.cellWeight v * bareA p a b (table p.R pos v a b) = -(turn6 p pos CN a b v + ratio p a b * turn8 p pos CN a b v) := by
  simp only [turn6, turn8, bareA, within, rSq_eq, R0pair_eq p h]
  by_cases h : table p.R pos v a b ≠ 0 ∧ table p.R pos v a b ≤ rCut p * rCut p
  · rw [if_pos h, if_pos h, if_pos h]; ring
  · rw [if_neg h, if_neg h, if_neg h]; ring

theorem turnG_eq (p : Params n) (h : Valid p) (pos : Fin n → V3 ℝ) (CN : Fin n → ℝ) (a b : Fin n) (v : Fin 3 → Int) :
    turnG p pos CN a b v = D2.cellWeight v * (C6pair p CN a b * bareAG p a b (table p.R pos v a b)) := by
  simp only [turnG, bareAG, within, rSq_eq, R0pair_eq p h, C8pair]
  by_cases h : table p.R pos v a b ≠ 0 ∧ table p.R pos v a b ≤ rCut p * rCut p
  · rw [if_pos h, if_pos h, show ratio8by6 p a b = ratio p a b from rfl]; ring
  · rw [if_neg h, if_neg h]; ring

theorem turnNG_eq (p : Params n) (pos : Fin n → V3 ℝ) (ecn : Fin n → ℝ) (a b : Fin n) (v : Fin 3 → Int) :
    turnNG p pos ecn a b v = D2.cellWeight v * ((ecn a + ecn b) * bareNG p a b (table p.R pos v a b)) := by
  simp only [turnNG, bareNG, rSq_eq]
  by_cases h : table p.R pos v a b ≠ 0 ∧ table p.R pos v a b ≤ rCutCN * rCutCN
  · rw [if_pos h, if_pos h]; ring
  · rw [if_neg h, if_neg h]; ring

theorem energyAndGrad_eq (P : Nat) (hP : 0 < P) (p : Params n) (hV : Valid p) (pos : Fin n → V3 ℝ) :
    energyAndGrad P p pos = some (closed p pos) := by
  obtain ⟨tds, h1, h2⟩ := ranges_eq P hP p (rCut p) (rCut_ne p)
  obtain ⟨tdc, h3, h4⟩ := ranges_eq P hP p rCutCN (by norm_num [rCutCN])
  simp only [energyAndGrad, computeCN_eq P hP, h1, h3, Option.bind_eq_bind, Option.bind_some, mine, List.map_map, Function.comp_def]
  generalize hCN : cnQ p (reach p rCutCN) (table p.R pos) = CN
  have hA : ∀ a b, aQ p (reach p (rCut p)) (table p.R pos) a b
      = -(tds.map fun td => ((Box.hLoop (S p (rCut p)) td.startMine td.stopMine).map fun q => turn6 p pos CN a b (D2.cell q.2)).sum).sum
        + -(tds.map fun td => ((Box.hLoop (S p (rCut p)) td.startMine td.stopMine).map fun q => turn8 p pos CN a b (D2.cell q.2)).sum).sum * ratio p a b := by
    intro a b
    rw [h2 (fun v => turn6 p pos CN a b v), h2 (fun v => turn8 p pos CN a b v)]
    simp only [aQ, turn68_eq p hV pos CN a b]
    rw [Finset.sum_neg_distrib, Finset.sum_add_distrib, ← Finset.mul_sum]
    ring
  have hecn : (fun c => (tds.map fun td => ∑ c1, ∑ c2,
      ((if c1 = c then (-((Box.hLoop (S p (rCut p)) td.startMine td.stopMine).map fun q => turn6 p pos CN c1 c2 (D2.cell q.2)).sum
          + -((Box.hLoop (S p (rCut p)) td.startMine td.stopMine).map fun q => turn8 p pos CN c1 c2 (D2.cell q.2)).sum * ratio8by6 p c1 c2)
          * sandwich (getLprime (p.atom c1).CN (CN c1)) (pairC6data p.T (p.atom c1) (p.atom c2)) (getL (p.atom c2).CN (CN c2)) else 0)
        + (if c2 = c then (-((Box.hLoop (S p (rCut p)) td.startMine td.stopMine).map fun q => turn6 p pos CN c1 c2 (D2.cell q.2)).sum
          + -((Box.hLoop (S p (rCut p)) td.startMine td.stopMine).map fun q => turn8 p pos CN c1 c2 (D2.cell q.2)).sum * ratio8by6 p c1 c2)
          * sandwich (getL (p.atom c1).CN (CN c1)) (pairC6data p.T (p.atom c1) (p.atom c2)) (getLprime (p.atom c2).CN (CN c2)) else 0))).sum)
      = ecnQ p CN (aQ p (reach p (rCut p)) (table p.R pos)) := by
    funext c
    rw [sum_pairs]
    unfold ecnQ
    refine Finset.sum_congr rfl fun a _ => Finset.sum_congr rfl fun b _ => ?_
    rw [hA]
    have := sum_lin tds
      (fun td => ((Box.hLoop (S p (rCut p)) td.startMine td.stopMine).map fun q => turn6 p pos CN a b (D2.cell q.2)).sum)
      (fun td => ((Box.hLoop (S p (rCut p)) td.startMine td.stopMine).map fun q => turn8 p pos CN a b (D2.cell q.2)).sum)
      (-(del c a * d1 p CN a b + del c b * d2 p CN a b)) (-(del c a * d1 p CN a b + del c b * d2 p CN a b) * ratio p a b)
    refine (Eq.trans ?_ this).trans (by ring)
    congr 2
    funext td
    rw [show ratio8by6 p a b = ratio p a b from rfl]
    simp only [del, d1, d2]
    split <;> split <;> ring
  rw [hecn]
  generalize hecn' : ecnQ p CN (aQ p (reach p (rCut p)) (table p.R pos)) = ecn
  unfold closed
  simp only [hCN, hecn']
  congr 2
  · -- energy
    unfold eQ
    rw [hCN, sum_pairs, sum_pairs]
    rw [← Finset.sum_add_distrib]
    refine Finset.sum_congr rfl fun a _ => ?_
    rw [← Finset.sum_add_distrib]
    refine Finset.sum_congr rfl fun b _ => ?_
    rw [hA]
    have e6 := sum_lin tds
      (fun td => ((Box.hLoop (S p (rCut p)) td.startMine td.stopMine).map fun q => turn6 p pos CN a b (D2.cell q.2)).sum) (fun _ => 0)
      (-C6pair p CN a b) 0
    have e8 := sum_lin tds
      (fun td => ((Box.hLoop (S p (rCut p)) td.startMine td.stopMine).map fun q => turn8 p pos CN a b (D2.cell q.2)).sum) (fun _ => 0)
      (-C8pair p CN a b) 0
    have f6 : ∀ y : ℝ, -y * C6pair p CN a b = -C6pair p CN a b * y + 0 * 0 := fun y => by ring
    have f8 : ∀ y : ℝ, -y * C8pair p CN a b = -C8pair p CN a b * y + 0 * 0 := fun y => by ring
    simp only [f6, f8]
    rw [e6, e8]
    simp only [C8pair]
    rw [show ratio8by6 p a b = ratio p a b from rfl]
    ring
  · funext c k
    congr 1
    · rw [sum_pairs]
      refine Finset.sum_congr rfl fun a _ => Finset.sum_congr rfl fun b _ => ?_
      rw [h2 (fun v => pushForce p pos (turnG p pos CN a b v) a b v c k)]
      refine Finset.sum_congr rfl fun v _ => ?_
      rw [turnG_eq p hV]
      simp only [pushForce, del]
      split <;> split <;> ring
    · rw [sum_pairs]
      refine Finset.sum_congr rfl fun a _ => Finset.sum_congr rfl fun b _ => ?_
      rw [h4 (fun v => pushForce p pos (turnNG p pos ecn a b v) a b v c k)]
      refine Finset.sum_congr rfl fun v _ => ?_
      rw [turnNG_eq]
      simp only [pushForce, del]
      split <;> split <;> ring
  · funext i j
    congr 1
    · rw [sum_pairs]
      refine Finset.sum_congr rfl fun a _ => Finset.sum_congr rfl fun b _ => ?_
      rw [h2 (fun v => pushStress p pos (turnG p pos CN a b v) a b v i j)]
      refine Finset.sum_congr rfl fun v _ => ?_
      rw [turnG_eq p hV]; rfl
    · rw [sum_pairs]
      refine Finset.sum_congr rfl fun a _ => Finset.sum_congr rfl fun b _ => ?_
      rw [h4 (fun v => pushStress p pos (turnNG p pos ecn a b v) a b v i j)]
      refine Finset.sum_congr rfl fun v _ => ?_
      rw [turnNG_eq]; rfl

/-! ## Derivatives along a path -/

theorem bareA_deriv (p : Params n) (hV : Valid p) (a b : Fin n) (q : ℝ → ℝ) (q' : ℝ) (h0 : 0 < q 0) (hq : HasDerivAt q q' 0)
    (h1 : Real.sqrt (q 0) ≠ rCut p) :
    HasDerivAt (fun t => bareA p a b (q t)) ((1 / 2) * bareAG p a b (q 0) * q') 0 := by
  have hr : 0 < Real.sqrt (q 0) := Real.sqrt_pos.2 h0
  have hc := rCut_pos p hV.cut
  have hs := hq.sqrt h0.ne'
  have hne : q 0 ≠ rCut p * rCut p := fun e => h1 (by rw [e]; exact Real.sqrt_mul_self hc.le)
  rcases lt_or_gt_of_ne hne with hlt | hgt
  · have hd := ((((term6_deriv p (radius p a b) _ hr).comp 0 hs).const_mul p.s6).add
      (((term8_deriv p (radius p a b) _ hr).comp 0 hs).const_mul (ratio p a b * p.s8))).neg
    have hev : (fun t => bareA p a b (q t)) =ᶠ[𝓝 0] fun t =>
        -(p.s6 * term6 p (radius p a b) (Real.sqrt (q t)) + ratio p a b * p.s8 * term8 p (radius p a b) (Real.sqrt (q t))) := by
      filter_upwards [hq.continuousAt.eventually_ne h0.ne', hq.continuousAt.eventually (gt_mem_nhds hlt)] with t ht ht'
      have ht'' : q t ≤ rCut p * rCut p := le_of_lt ht'
      simp only [bareA, if_pos (And.intro ht ht'')]
    refine HasDerivAt.congr_of_eventuallyEq (hd.congr_deriv ?_) hev
    simp only [bareAG, if_pos (And.intro h0.ne' hlt.le)]
    field_simp
  · have hev : (fun t => bareA p a b (q t)) =ᶠ[𝓝 0] fun _ => 0 := by
      filter_upwards [hq.continuousAt.eventually (lt_mem_nhds hgt)] with t ht
      have ht' : ¬ (q t ≠ 0 ∧ q t ≤ rCut p * rCut p) := fun h => absurd h.2 (not_le.2 ht)
      simp only [bareA, if_neg ht']
    refine HasDerivAt.congr_of_eventuallyEq ((hasDerivAt_const _ _).congr_deriv ?_) hev
    have ht' : ¬ (q 0 ≠ 0 ∧ q 0 ≤ rCut p * rCut p) := fun h => absurd h.2 (not_le.2 hgt)
    simp only [bareAG, if_neg ht']; ring

theorem bareN_deriv (p : Params n) (a b : Fin n) (q : ℝ → ℝ) (q' : ℝ) (h0 : 0 < q 0) (hq : HasDerivAt q q' 0)
    (h1 : Real.sqrt (q 0) ≠ 50) :
    HasDerivAt (fun t => bareN p a b (q t)) ((1 / 2) * bareNG p a b (q 0) * q') 0 := by
  have hr : 0 < Real.sqrt (q 0) := Real.sqrt_pos.2 h0
  have hs := hq.sqrt h0.ne'
  have hne : q 0 ≠ rCutCN * rCutCN := fun e => h1 (by rw [e]; exact Real.sqrt_mul_self (by norm_num [rCutCN]))
  rcases lt_or_gt_of_ne hne with hlt | hgt
  · have hE := (((((hasDerivAt_const 0 (k2RcovSum p a b)).div hs hr.ne').sub_const 1).const_mul (-k1)).exp).const_add 1
    have hpos : (1 + Real.exp (-k1 * (k2RcovSum p a b / Real.sqrt (q 0) - 1))) ≠ 0 := by positivity
    have hd := (hasDerivAt_const (0 : ℝ) (1 : ℝ)).div hE hpos
    have hev : (fun t => bareN p a b (q t)) =ᶠ[𝓝 0] fun t =>
        1 / (1 + Real.exp (-k1 * (k2RcovSum p a b / Real.sqrt (q t) - 1))) := by
      filter_upwards [hq.continuousAt.eventually_ne h0.ne', hq.continuousAt.eventually (gt_mem_nhds hlt)] with t ht ht'
      have ht'' : q t ≤ rCutCN * rCutCN := le_of_lt ht'
      simp only [bareN, if_pos (And.intro ht ht'')]
    refine HasDerivAt.congr_of_eventuallyEq (hd.congr_deriv ?_) hev
    simp only [bareNG, if_pos (And.intro h0.ne' hlt.le), mul_one_div, Pi.div_apply]
    generalize Real.exp (-k1 * (k2RcovSum p a b / Real.sqrt (q 0) - 1)) = E at *
    field_simp
    ring
  · have hev : (fun t => bareN p a b (q t)) =ᶠ[𝓝 0] fun _ => 0 := by
      filter_upwards [hq.continuousAt.eventually (lt_mem_nhds hgt)] with t ht
      have ht' : ¬ (q t ≠ 0 ∧ q t ≤ rCutCN * rCutCN) := fun h => absurd h.2 (not_le.2 ht)
      simp only [bareN, if_neg ht']
    refine HasDerivAt.congr_of_eventuallyEq ((hasDerivAt_const _ _).congr_deriv ?_) hev
    have ht' : ¬ (q 0 ≠ 0 ∧ q 0 ≤ rCutCN * rCutCN) := fun h => absurd h.2 (not_le.2 hgt)
    simp only [bareNG, if_neg ht']; ring

/-- A path of squared distances with its derivative: every entry is positive and off the cutoffs, or zero all along. -/
structure Path (p : Params n) (q : ℝ → (Fin 3 → Int) → Fin n → Fin n → ℝ) (q' : (Fin 3 → Int) → Fin n → Fin n → ℝ) : Prop where
  deriv : ∀ v a b, HasDerivAt (fun t => q t v a b) (q' v a b) 0
  entry : ∀ v a b, (0 < q 0 v a b ∧ Real.sqrt (q 0 v a b) ≠ rCut p ∧ Real.sqrt (q 0 v a b) ≠ 50) ∨ ((∀ t, q t v a b = 0) ∧ q' v a b = 0)

/-- Derivative of the energy along a path. -/
theorem eQ_deriv (p : Params n) (hV : Valid p) (N NC : Fin 3 → Nat) (q : ℝ → (Fin 3 → Int) → Fin n → Fin n → ℝ)
    (q' : (Fin 3 → Int) → Fin n → Fin n → ℝ) (hq : Path p q q')
    (hL : ∀ a, Lsum (p.atom a).CN (cnQ p NC (q 0) a) ≠ tiny) :
    HasDerivAt (fun t => eQ p N NC (q t))
      ((∑ a, ∑ b, ∑ v ∈ half N, D2.cellWeight v * (C6pair p (cnQ p NC (q 0)) a b * bareAG p a b (q 0 v a b)) * ((1 / 2) * q' v a b))
        + ∑ a, ∑ b, ∑ v ∈ half NC, D2.cellWeight v * ((ecnQ p (cnQ p NC (q 0)) (aQ p N (q 0)) a + ecnQ p (cnQ p NC (q 0)) (aQ p N (q 0)) b)
          * bareNG p a b (q 0 v a b)) * ((1 / 2) * q' v a b)) 0 := by
  have hA : ∀ a b v, HasDerivAt (fun t => bareA p a b (q t v a b)) ((1 / 2) * bareAG p a b (q 0 v a b) * q' v a b) 0 := by
    intro a b v
    rcases hq.entry v a b with h | ⟨h, h'⟩
    · exact bareA_deriv p hV a b (fun t => q t v a b) _ h.1 (hq.deriv v a b) h.2.1
    · simp only [h, h', mul_zero]; exact hasDerivAt_const _ _
  have hN : ∀ a b v, HasDerivAt (fun t => bareN p a b (q t v a b)) ((1 / 2) * bareNG p a b (q 0 v a b) * q' v a b) 0 := by
    intro a b v
    rcases hq.entry v a b with h | ⟨h, h'⟩
    · exact bareN_deriv p a b (fun t => q t v a b) _ h.1 (hq.deriv v a b) h.2.2
    · simp only [h, h', mul_zero]; exact hasDerivAt_const _ _
  let CN := cnQ p NC (q 0)
  let A := aQ p N (q 0)
  let A' : Fin n → Fin n → ℝ := fun a b => ∑ v ∈ half N, D2.cellWeight v * ((1 / 2) * bareAG p a b (q 0 v a b) * q' v a b)
  let M' : Fin n → Fin n → ℝ := fun a b => ∑ v ∈ half NC, D2.cellWeight v * ((1 / 2) * bareNG p a b (q 0 v a b) * q' v a b)
  let CN' : Fin n → ℝ := fun c => ∑ a, ∑ b, (del c a + del c b) * M' a b
  have hA' : ∀ a b, HasDerivAt (fun t => aQ p N (q t) a b) (A' a b) 0 := fun a b =>
    HasDerivAt.fun_sum fun v _ => (hA a b v).const_mul _
  have hCN : ∀ c, HasDerivAt (fun t => cnQ p NC (q t) c) (CN' c) 0 := by
    intro c
    have := HasDerivAt.fun_sum fun a (_ : a ∈ (Finset.univ : Finset (Fin n))) => HasDerivAt.fun_sum fun b (_ : b ∈ (Finset.univ : Finset (Fin n))) =>
      HasDerivAt.fun_sum fun v (_ : v ∈ half NC) => ((hN a b v).const_mul (D2.cellWeight v)).const_mul (del c a + del c b)
    refine this.congr_deriv ?_
    simp only [CN', M', Finset.mul_sum]
  have hC6 : ∀ a b, HasDerivAt (fun t => C6pair p (cnQ p NC (q t)) a b) (d1 p CN a b * CN' a + d2 p CN a b * CN' b) 0 := fun a b =>
    sandwich_deriv _ _ _ (fun t => cnQ p NC (q t) a) (fun t => cnQ p NC (q t) b) _ _ (hL a) (hL b) (hCN a) (hCN b)
  have hs := HasDerivAt.fun_sum fun a (_ : a ∈ (Finset.univ : Finset (Fin n))) => HasDerivAt.fun_sum fun b (_ : b ∈ (Finset.univ : Finset (Fin n))) =>
    (hC6 a b).mul (hA' a b)
  refine hs.congr_deriv ?_
  have e1 : ∑ a, ∑ b, ((d1 p CN a b * CN' a + d2 p CN a b * CN' b) * aQ p N (q 0) a b + C6pair p (cnQ p NC (q 0)) a b * A' a b)
      = ∑ a, ∑ b, C6pair p CN a b * A' a b + ∑ a, ∑ b, (d1 p CN a b * CN' a + d2 p CN a b * CN' b) * A a b := by
    rw [← Finset.sum_add_distrib]
    refine Finset.sum_congr rfl fun a _ => ?_
    rw [← Finset.sum_add_distrib]
    exact Finset.sum_congr rfl fun b _ => add_comm _ _
  rw [e1]
  congr 1
  · refine Finset.sum_congr rfl fun a _ => Finset.sum_congr rfl fun b _ => ?_
    simp only [A', Finset.mul_sum, CN]
    exact Finset.sum_congr rfl fun v _ => by ring
  · -- exchange of the two sums over pairs
    have e2 : ∑ a, ∑ b, (d1 p CN a b * CN' a + d2 p CN a b * CN' b) * A a b = ∑ c, ecnQ p CN A c * CN' c := by
      simp only [ecnQ, Finset.sum_mul]
      symm
      rw [Finset.sum_comm]
      refine Finset.sum_congr rfl fun a _ => ?_
      rw [Finset.sum_comm]
      refine Finset.sum_congr rfl fun b _ => ?_
      have : ∀ c, (del c a * d1 p CN a b + del c b * d2 p CN a b) * A a b * CN' c
          = d1 p CN a b * A a b * (if c = a then CN' c else 0) + d2 p CN a b * A a b * (if c = b then CN' c else 0) := by
        intro c
        simp only [del, eq_comm (a := a), eq_comm (a := b)]
        split <;> split <;> ring
      simp only [this, Finset.sum_add_distrib, ← Finset.mul_sum, Finset.sum_ite_eq', Finset.mem_univ, if_true]
      ring
    rw [e2]
    simp only [CN', Finset.mul_sum]
    rw [Finset.sum_comm]
    refine Finset.sum_congr rfl fun a _ => ?_
    rw [Finset.sum_comm]
    refine Finset.sum_congr rfl fun b _ => ?_
    have : ∀ c, ecnQ p CN A c * ((del c a + del c b) * M' a b)
        = M' a b * (if c = a then ecnQ p CN A c else 0) + M' a b * (if c = b then ecnQ p CN A c else 0) := by
      intro c
      simp only [del, eq_comm (a := a), eq_comm (a := b)]
      split <;> split <;> ring
    simp only [this, Finset.sum_add_distrib, ← Finset.mul_sum, Finset.sum_ite_eq', Finset.mem_univ, if_true]
    simp only [M', Finset.sum_mul, ← Finset.sum_add_distrib]
    refine Finset.sum_congr rfl fun v _ => ?_
    simp only [CN, A]
    ring

end
end Jdftx.D3
