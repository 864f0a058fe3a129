import Verif.Spec.VdwD2
import Verif.Lemmas.EwaldStress
import Verif.Lemmas.Box
import Verif.Props.TaskDivision
import Verif.Props.Box

/-!
# Lemmas for C71
-/
namespace Jdftx.D2
noncomputable section
open M3 Filter Topology Ewald

variable {n : Nat}

/-! ## The pair function -/

theorem pairE_deriv (lj C6 R0 r : ℝ) (hr : 0 < r) (h1 : lj ≠ 0 → r ≠ lj)
    (h2 : lj = 0 → 0 < R0 ∧ r / R0 ≠ 0.3000002494598603) :
    HasDerivAt (fun r => pairE lj C6 R0 r) (pairEr lj C6 R0 r) r := by
  have hid := hasDerivAt_id r
  have hinv : HasDerivAt (fun r : ℝ => 1 / r) (-(1 / r ^ 2)) r := by
    refine ((hasDerivAt_const r (1 : ℝ)).div hid hr.ne').congr_deriv ?_
    simp; ring
  have hinv6 : HasDerivAt (fun r : ℝ => (1 / r) ^ 6) (-6 / r ^ 7) r := by
    refine (hinv.pow 6).congr_deriv ?_
    rw [show (6 - 1 : ℕ) = 5 from rfl]
    push_cast
    field_simp
  by_cases hlj : lj = 0
  · obtain ⟨hR, hne⟩ := h2 hlj
    have hlj' : ¬ lj ≠ 0 := fun h => h hlj
    have hc : ContinuousAt (fun r : ℝ => r * (1 / R0)) r := by fun_prop
    have hne' : r * (1 / R0) ≠ 0.3000002494598603 := by rwa [mul_one_div]
    rcases lt_or_gt_of_ne hne' with h | h
    · have : (fun r => pairE lj C6 R0 r) =ᶠ[𝓝 r] fun _ => 0.00114064201325433 * C6 * (1 / R0) ^ 6 := by
        filter_upwards [hc.eventually (gt_mem_nhds h)] with s hs
        simp only [pairE, if_neg hlj', if_pos hs]
      refine HasDerivAt.congr_of_eventuallyEq ?_ this
      simp only [pairEr, if_neg hlj', if_pos h]
      exact hasDerivAt_const _ _
    · have : (fun r => pairE lj C6 R0 r) =ᶠ[𝓝 r]
          fun r => (C6 * (1 / r) ^ 6) * (1 / (1 + Real.exp (-20 * (r * (1 / R0) - 1)))) := by
        filter_upwards [hc.eventually (lt_mem_nhds h)] with s hs
        simp only [pairE, if_neg hlj', if_neg (not_lt.2 hs.le)]
      refine HasDerivAt.congr_of_eventuallyEq ?_ this
      simp only [pairEr, if_neg hlj', if_neg (not_lt.2 h.le)]
      have hE := ((((hid.mul_const (1 / R0)).sub_const 1).const_mul (-20)).exp).const_add 1
      have hpos : (1 + Real.exp (-20 * (id r * (1 / R0) - 1))) ≠ 0 := by positivity
      have hf := (hasDerivAt_const r (1 : ℝ)).div hE hpos
      refine ((hinv6.const_mul C6).mul hf).congr_deriv ?_
      have hp' : (1 + Real.exp (-20 * (r * (1 / R0) - 1))) ≠ 0 := hpos
      simp only [id, Pi.div_apply]
      generalize Real.exp (-20 * (r * (1 / R0) - 1)) = E at *
      have hR' := hR.ne'
      field_simp
      ring
  · have hne := h1 hlj
    rcases lt_or_gt_of_ne hne with h | h
    · have : (fun r => pairE lj C6 R0 r) =ᶠ[𝓝 r] fun r => (C6 * (1 / r) ^ 6) * (1 - 0.5 * R0 ^ 6 * (1 / r) ^ 6) := by
        filter_upwards [gt_mem_nhds h] with s hs
        simp only [pairE, if_pos hlj, if_neg (not_lt.2 (le_of_lt hs))]
      refine HasDerivAt.congr_of_eventuallyEq ?_ this
      simp only [pairEr, if_pos hlj, if_neg (not_lt.2 h.le)]
      refine ((hinv6.const_mul C6).mul ((hinv6.const_mul (0.5 * R0 ^ 6)).const_sub 1)).congr_deriv ?_
      field_simp
      ring
    · have : (fun r => pairE lj C6 R0 r) =ᶠ[𝓝 r] fun _ => 0 := by
        filter_upwards [lt_mem_nhds h] with s hs
        simp only [pairE, if_pos hlj, if_pos hs]
      refine HasDerivAt.congr_of_eventuallyEq ?_ this
      simp only [pairEr, if_pos hlj, if_pos h]
      exact hasDerivAt_const _ _

/-! ## Sums over cells -/

theorem size1_eq (p : Params n) (k : Fin 3) : size1 p k = 1 + 2 * reach p k := rfl

theorem S_pos (p : Params n) : (S p).Pos := ⟨by simp only [S, size1_eq]; omega, by simp only [S, size1_eq]; omega, by simp only [S, size1_eq]; omega⟩

theorem sum_list_finset {α ι : Type} (l : List α) (s : Finset ι) (F : ι → α → ℝ) :
    (l.map fun a => ∑ i ∈ s, F i a).sum = ∑ i ∈ s, (l.map (F i)).sum := by
  induction l with
  | nil => simp
  | cons a l ih => simp only [List.map_cons, List.sum_cons, ih, Finset.sum_add_distrib]

theorem sum_list_neg {α : Type} (l : List α) (F : α → ℝ) : (l.map fun a => -F a).sum = -(l.map F).sum := by
  induction l with
  | nil => simp
  | cons a l ih => simp only [List.map_cons, List.sum_cons, ih]; ring

/-- The ranges of all processes together are all cells. -/
theorem sum_processes (p : Params n) (P : Nat) (hP : 0 < P) : ∃ tds,
    (List.range P).mapM (TaskDiv.init (Box.nG (S p)) P) = some tds ∧
    ∀ f : Box.IV → ℝ, (tds.map fun td => ((Box.hLoop (S p) td.startMine td.stopMine).map fun q => f q.2).sum).sum
      = ∑ i ∈ Finset.range (Box.nG (S p)), f (Box.hStart (S p) i) := by
  obtain ⟨tds, h1, -, h3, -⟩ := TaskDiv.C01_partition (Box.nG (S p)) P hP
  refine ⟨tds, h1, fun f => ?_⟩
  unfold Spec.ExactCover at h3
  have hb : ∀ td ∈ tds, td.startMine < td.stopMine → td.stopMine ≤ Box.nG (S p) := by
    intro td htd hlt
    have : td.stopMine - 1 ∈ List.range (Box.nG (S p)) := by
      rw [← h3]
      simp only [List.mem_flatMap, List.mem_map]
      exact ⟨_, ⟨td, htd, rfl⟩, TaskDiv.mem_interval.2 ⟨by dsimp only; omega, by dsimp only; omega⟩⟩
    have := List.mem_range.1 this; omega
  have e : ∀ td ∈ tds, ((Box.hLoop (S p) td.startMine td.stopMine).map fun q => f q.2).sum
      = ((Spec.interval td.startMine td.stopMine).map fun i => f (Box.hStart (S p) i)).sum := by
    intro td htd
    unfold Box.hLoop
    by_cases hlt : td.startMine < td.stopMine
    · rw [Box.hLoopFrom_eq (S p) (S_pos p) _ (hb td htd hlt) _ _ (by omega)]
      simp [Spec.interval, Function.comp_def]
    · have : td.stopMine - td.startMine = 0 := by omega
      simp only [Spec.interval, this]
      cases hs : td.stopMine with
      | zero => simp [Box.hLoopFrom]
      | succ m => simp [Box.hLoopFrom, show ¬ td.startMine < m + 1 by omega]
  rw [List.map_congr_left e]
  have hflat : ∀ l : List TaskDiv.TaskDivision,
      (l.map fun td => ((Spec.interval td.startMine td.stopMine).map fun i => f (Box.hStart (S p) i)).sum).sum
        = (((l.map fun td => (td.startMine, td.stopMine)).flatMap fun r => Spec.interval r.1 r.2).map
            fun i => f (Box.hStart (S p) i)).sum := by
    intro l
    induction l with
    | nil => simp
    | cons a l ih => simp [ih]
  rw [hflat, h3]
  rw [Finset.sum_range, ← List.sum_ofFn, List.ofFn_eq_map]
  simp [← List.map_coe_finRange_eq_range, Function.comp_def]

/-- The visited cells are the half of the box with non-negative last index. -/
theorem sum_half (p : Params n) (f : (Fin 3 → Int) → ℝ) :
    ∑ i ∈ Finset.range (Box.nG (S p)), f (cell (Box.hStart (S p) i)) = ∑ v ∈ (cells (reach p)).filter (fun v => 0 ≤ v 2), f v := by
  have hS := S_pos p
  have hv : ∀ i, i < Box.nG (S p) → Box.ValidH (S p) (Box.hStart (S p) i) ∧ Box.halfGindex (S p) (Box.hStart (S p) i) = i := by
    intro i hi
    have := Box.C20_half_loop (S p) hS i (i + 1) (by omega)
    unfold Box.hLoop at this
    rw [Box.hLoopFrom_eq (S p) hS _ (by omega) _ _ (by omega)] at this
    simpa using this.2
  refine Finset.sum_bij (fun i _ => cell (Box.hStart (S p) i)) ?_ ?_ ?_ (fun _ _ => rfl)
  · intro i hi
    obtain ⟨⟨⟨h0, h1, h2⟩, h3⟩, -⟩ := hv i (Finset.mem_range.1 hi)
    generalize Box.hStart (S p) i = w at *
    simp only [Box.Centred, S, size1_eq] at h0 h1 h2
    rw [Finset.mem_filter, cells, Fintype.mem_piFinset]
    refine ⟨fun k => ?_, h3⟩
    rw [Finset.mem_Icc]
    match k with
    | 0 => simp [cell, vec]; omega
    | 1 => simp [cell, vec]; omega
    | 2 => simp [cell, vec]; omega
  · intro i hi j hj h
    have e : Box.hStart (S p) i = Box.hStart (S p) j := by
      have h0 := congrFun h 0
      have h1 := congrFun h 1
      have h2 := congrFun h 2
      simp [cell, vec] at h0 h1 h2
      cases hi : Box.hStart (S p) i; cases hj : Box.hStart (S p) j
      rw [hi, hj] at h0 h1 h2
      simp_all
    have hi' := (hv i (Finset.mem_range.1 hi)).2
    have hj' := (hv j (Finset.mem_range.1 hj)).2
    rw [e, hj'] at hi'
    exact_mod_cast hi'.symm
  · intro v hv'
    rw [Finset.mem_filter, cells, Fintype.mem_piFinset] at hv'
    obtain ⟨hb, h0⟩ := hv'
    have hb0 := Finset.mem_Icc.1 (hb 0)
    have hb1 := Finset.mem_Icc.1 (hb 1)
    have hb2 := Finset.mem_Icc.1 (hb 2)
    have hV : Box.ValidH (S p) ⟨v 0, v 1, v 2⟩ := by
      refine ⟨⟨?_, ?_, ?_⟩, h0⟩ <;> simp only [Box.Centred, S, size1_eq] <;> push_cast <;> omega
    obtain ⟨hr, huniq⟩ := Box.C19_half (S p) hS
    obtain ⟨hr0, hr1⟩ := hr _ hV
    obtain ⟨i, hi⟩ := Int.eq_ofNat_of_zero_le hr0
    have hi' : i < Box.nG (S p) := by rw [hi] at hr1; exact_mod_cast hr1
    obtain ⟨w, -, hw⟩ := huniq i hi'
    have e1 := hw _ ⟨hV, hi⟩
    have e2 := hw _ (hv i hi')
    refine ⟨i, Finset.mem_range.2 hi', ?_⟩
    rw [e2, ← e1]
    funext k
    match k with
    | 0 => simp [cell, vec]
    | 1 => simp [cell, vec]
    | 2 => simp [cell, vec]

/-- Half of the cells with weights against all cells. -/
theorem half_full (N : Fin 3 → Nat) (h : (Fin 3 → Int) → ℝ) (heven : ∀ v, h (-v) = h v) :
    ∑ v ∈ (cells N).filter (fun v => 0 ≤ v 2), cellWeight v * h v = (1 / 2) * ∑ v ∈ cells N, h v := by
  have e1 : ∑ v ∈ (cells N).filter (fun v => 0 ≤ v 2), cellWeight v * h v
      = ∑ v ∈ cells N, if 0 ≤ v 2 then cellWeight v * h v else 0 := Finset.sum_filter _ _
  have e2 : ∑ v ∈ cells N, (if 0 ≤ v 2 then cellWeight v * h v else 0)
      = ∑ v ∈ cells N, (if 0 ≤ -v 2 then cellWeight v * h v else 0) := by
    rw [← sum_cells_neg]
    refine Finset.sum_congr rfl fun v _ => ?_
    have : cellWeight (-v) = cellWeight v := by simp [cellWeight]
    rw [this, heven]; rfl
  have e3 : ∑ v ∈ cells N, (if 0 ≤ v 2 then cellWeight v * h v else 0)
      + ∑ v ∈ cells N, (if 0 ≤ -v 2 then cellWeight v * h v else 0) = ∑ v ∈ cells N, h v := by
    rw [← Finset.sum_add_distrib]
    refine Finset.sum_congr rfl fun v _ => ?_
    rcases lt_trichotomy (v 2) 0 with h0 | h0 | h0
    · rw [if_neg (by omega), if_pos (by omega), cellWeight, if_pos (by omega)]; ring
    · rw [if_pos (by omega), if_pos (by omega), cellWeight, if_neg (by omega)]; ring
    · rw [if_pos (by omega), if_neg (by omega), cellWeight, if_pos (by omega)]; ring
  rw [e1]
  linarith

/-! ## One turn without the cell weight -/

theorem rSq_eq (p : Params n) (x : V3 ℝ) : rSq p x = WS.lenSq p.R x := WS.metric_lenSq p.R x

open Classical in
/-- Pair energy as a function of the squared distance. -/
def bareE (p : Params n) (c1 c2 : Fin n) (s : ℝ) : ℝ :=
  if s ≠ 0 then p.scale * pairE p.lj (C6pair p c1 c2) (R0pair p c1 c2) (Real.sqrt s) else 0

open Classical in
/-- Derivative of the pair energy divided by the distance. -/
def bareG (p : Params n) (c1 c2 : Fin n) (s : ℝ) : ℝ :=
  if s ≠ 0 then p.scale * pairEr p.lj (C6pair p c1 c2) (R0pair p c1 c2) (Real.sqrt s) / Real.sqrt s else 0

theorem turnE_eq (p : Params n) (pos : Fin n → V3 ℝ) (c1 c2 : Fin n) (v : Fin 3 → Int) :
    turnE p pos c1 c2 v = cellWeight v * bareE p c1 c2 (WS.lenSq p.R (sep v (pos c1) (pos c2))) := by
  simp only [turnE, bareE, rSq_eq]; split <;> ring

theorem turnX_eq (p : Params n) (pos : Fin n → V3 ℝ) (c1 c2 : Fin n) (v : Fin 3 → Int) (k : Fin 3) :
    turnX p pos c1 c2 v k = cellWeight v * (bareG p c1 c2 (WS.lenSq p.R (sep v (pos c1) (pos c2)))
      * mulMV (WS.RTR p.R) (sep v (pos c1) (pos c2)) k) := by
  simp only [turnX, bareG, rSq_eq]
  by_cases h : WS.lenSq p.R (sep v (pos c1) (pos c2)) ≠ 0
  · rw [if_pos h, if_pos h]; ring
  · rw [if_neg h, if_neg h]; simp

theorem turnS_eq (p : Params n) (pos : Fin n → V3 ℝ) (c1 c2 : Fin n) (v : Fin 3 → Int) (i j : Fin 3) :
    turnS p pos c1 c2 v i j = cellWeight v * (bareG p c1 c2 (WS.lenSq p.R (sep v (pos c1) (pos c2)))
      * outer (mulMV p.R (sep v (pos c1) (pos c2))) (mulMV p.R (sep v (pos c1) (pos c2))) i j) := by
  simp only [turnS, bareG, rSq_eq]
  by_cases h : WS.lenSq p.R (sep v (pos c1) (pos c2)) ≠ 0
  · rw [if_pos h, if_pos h]; ring
  · rw [if_neg h, if_neg h]; simp

theorem pair_comm (p : Params n) (c1 c2 : Fin n) : C6pair p c1 c2 = C6pair p c2 c1 ∧ R0pair p c1 c2 = R0pair p c2 c1 :=
  ⟨by simp only [C6pair]; rw [mul_comm], by simp only [R0pair]; rw [add_comm]⟩

theorem sep_neg (v : Fin 3 → Int) (x y : V3 ℝ) : sep (-v) x y = fun k => -sep v y x k := by
  funext k; simp only [sep, toR, Pi.neg_apply]; push_cast; ring

theorem lenSq_neg (R : Mat ℝ) (x : V3 ℝ) : WS.lenSq R (fun k => -x k) = WS.lenSq R x := by
  simp only [WS.lenSq, dot, mulMV]; ring

/-- Sum over atoms of a symmetric function of the pair is even in the cell. -/
theorem even_of_swap (F : Fin n → Fin n → (Fin 3 → Int) → ℝ) (h : ∀ a b v, F a b (-v) = F b a v) (v : Fin 3 → Int) :
    ∑ a, ∑ b, F a b (-v) = ∑ a, ∑ b, F a b v := by
  simp only [h]; exact Finset.sum_comm

/-- A sum over processes, atoms and the cells of each process is half of the sum over all cells. -/
theorem collect (p : Params n) (tds : List TaskDiv.TaskDivision)
    (ht : ∀ f : Box.IV → ℝ, (tds.map fun td => ((Box.hLoop (S p) td.startMine td.stopMine).map fun q => f q.2).sum).sum
      = ∑ i ∈ Finset.range (Box.nG (S p)), f (Box.hStart (S p) i))
    (F : Fin n → Fin n → (Fin 3 → Int) → ℝ) (h : ∀ a b v, F a b (-v) = F b a v) :
    (tds.map fun td => ∑ a, ∑ b, ((Box.hLoop (S p) td.startMine td.stopMine).map fun q => cellWeight (cell q.2) * F a b (cell q.2)).sum).sum
      = (1 / 2) * ∑ a, ∑ b, ∑ v ∈ cells (reach p), F a b v := by
  rw [sum_list_finset]
  simp only [sum_list_finset]
  have e : ∀ a b, (tds.map fun td => ((Box.hLoop (S p) td.startMine td.stopMine).map
      fun q => cellWeight (cell q.2) * F a b (cell q.2)).sum).sum
        = ∑ v ∈ (cells (reach p)).filter (fun v => 0 ≤ v 2), cellWeight v * F a b v := by
    intro a b
    rw [ht (fun v => cellWeight (cell v) * F a b (cell v)), sum_half p (fun v => cellWeight v * F a b v)]
  simp only [e]
  have e2 := half_full (reach p) (fun v => ∑ a, ∑ b, F a b v) (fun v => even_of_swap F h v)
  have e3 : ∑ a, ∑ b, ∑ v ∈ cells (reach p), F a b v = ∑ v ∈ cells (reach p), ∑ a, ∑ b, F a b v := by
    rw [Finset.sum_comm' (s := cells (reach p)) (t := fun _ => Finset.univ) (t' := Finset.univ) (s' := fun _ => cells (reach p)) (by simp)]
    exact Finset.sum_congr rfl fun a _ => Finset.sum_comm
  rw [e3, ← e2]
  have e4 : ∀ v, cellWeight v * ∑ a, ∑ b, F a b v = ∑ a, ∑ b, cellWeight v * F a b v := by
    intro v; simp only [Finset.mul_sum]
  simp only [e4]
  rw [Finset.sum_comm' (s := (cells (reach p)).filter fun v => 0 ≤ v 2) (t := fun _ => Finset.univ) (t' := Finset.univ)
    (s' := fun _ => (cells (reach p)).filter fun v => 0 ≤ v 2) (by simp)]
  exact Finset.sum_congr rfl fun a _ => Finset.sum_comm

/-- The results in closed form. -/
def closed (p : Params n) (pos : Fin n → V3 ℝ) : Out n where
  E := -((1 / 2) * ∑ a, ∑ b, ∑ v ∈ cells (reach p), bareE p a b (WS.lenSq p.R (sep v (pos a) (pos b))))
  force := fun c k => (1 / 2) * ∑ a, ∑ b, ∑ v ∈ cells (reach p), (del c a - del c b) *
    (bareG p a b (WS.lenSq p.R (sep v (pos a) (pos b))) * mulMV (WS.RTR p.R) (sep v (pos a) (pos b)) k)
  stress := fun i j => -((1 / 2) * ∑ a, ∑ b, ∑ v ∈ cells (reach p), bareG p a b (WS.lenSq p.R (sep v (pos a) (pos b)))
    * outer (mulMV p.R (sep v (pos a) (pos b))) (mulMV p.R (sep v (pos a) (pos b))) i j)

theorem energyAndGrad_eq (P : Nat) (hP : 0 < P) (p : Params n) (pos : Fin n → V3 ℝ) :
    energyAndGrad P p pos = some (closed p pos) := by
  obtain ⟨tds, h1, ht⟩ := sum_processes p P hP
  have hb : ∀ a b s, bareE p a b s = bareE p b a s ∧ bareG p a b s = bareG p b a s := by
    intro a b s
    simp only [bareE, bareG, (pair_comm p a b).1, (pair_comm p a b).2]
    exact ⟨trivial, trivial⟩
  simp only [energyAndGrad, h1, Option.bind_eq_bind, Option.bind_some, mine, List.map_map, Function.comp_def]
  congr 1
  unfold closed
  congr 1
  · rw [sum_list_neg]
    simp only [turnE_eq]
    rw [collect p tds ht (fun a b v => bareE p a b (WS.lenSq p.R (sep v (pos a) (pos b))))]
    intro a b v
    rw [sep_neg, lenSq_neg, (hb a b _).1]
  · funext c k
    have e : ∀ a b v, ((if a = c then turnX p pos a b v k else 0) - (if b = c then turnX p pos a b v k else 0))
        = cellWeight v * ((del c a - del c b) *
          (bareG p a b (WS.lenSq p.R (sep v (pos a) (pos b))) * mulMV (WS.RTR p.R) (sep v (pos a) (pos b)) k)) := by
      intro a b v
      simp only [turnX_eq, del]; split <;> split <;> ring
    simp only [e]
    rw [collect p tds ht (fun a b v => (del c a - del c b) *
          (bareG p a b (WS.lenSq p.R (sep v (pos a) (pos b))) * mulMV (WS.RTR p.R) (sep v (pos a) (pos b)) k))]
    intro a b v
    rw [sep_neg, lenSq_neg, (hb a b _).2]
    simp only [mulMV]; ring
  · funext i j
    rw [sum_list_neg]
    simp only [turnS_eq]
    rw [collect p tds ht (fun a b v => bareG p a b (WS.lenSq p.R (sep v (pos a) (pos b)))
      * outer (mulMV p.R (sep v (pos a) (pos b))) (mulMV p.R (sep v (pos a) (pos b))) i j)]
    intro a b v
    rw [sep_neg, lenSq_neg, (hb a b _).2]
    simp only [outer, mulMV]; ring

/-! ## Derivatives -/

theorem bareE_deriv (p : Params n) (c1 c2 : Fin n) (q : ℝ → ℝ) (q' : ℝ) (h0 : 0 < q 0) (hq : HasDerivAt q q' 0)
    (h1 : p.lj ≠ 0 → Real.sqrt (q 0) ≠ p.lj)
    (h2 : p.lj = 0 → 0 < R0pair p c1 c2 ∧ Real.sqrt (q 0) / R0pair p c1 c2 ≠ 0.3000002494598603) :
    HasDerivAt (fun t => bareE p c1 c2 (q t)) ((1 / 2) * bareG p c1 c2 (q 0) * q') 0 := by
  have hr : 0 < Real.sqrt (q 0) := Real.sqrt_pos.2 h0
  have hs := hq.sqrt h0.ne'
  have hd := ((pairE_deriv p.lj (C6pair p c1 c2) (R0pair p c1 c2) (Real.sqrt (q 0)) hr h1 h2).comp 0 hs).const_mul p.scale
  have hev : (fun t => bareE p c1 c2 (q t)) =ᶠ[𝓝 0] fun t => p.scale * pairE p.lj (C6pair p c1 c2) (R0pair p c1 c2) (Real.sqrt (q t)) := by
    filter_upwards [hq.continuousAt.eventually_ne h0.ne'] with t ht
    simp only [bareE, if_pos ht]
  refine HasDerivAt.congr_of_eventuallyEq (hd.congr_deriv ?_) hev
  simp only [bareG, if_pos h0.ne']
  field_simp

end
end Jdftx.D2
