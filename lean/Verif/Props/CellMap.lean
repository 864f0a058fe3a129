import Verif.Lemmas.CellMap
import Verif.Props.Basis

/-!
# Weights of the cell map of a supercell (C57)
-/
namespace Jdftx.CellMap
noncomputable section
open M3

theorem box_nodup (a b c : Int) : ((Basis.loop a).flatMap fun x => (Basis.loop b).flatMap fun y =>
    (Basis.loop c).map fun z => (⟨x, y, z⟩ : Box.IV)).Nodup := by
  rw [List.nodup_flatMap]
  refine ⟨fun x _ => ?_, ?_⟩
  · rw [List.nodup_flatMap]
    refine ⟨fun y _ => ?_, ?_⟩
    · refine List.Nodup.map ?_ (Basis.loop_nodup _)
      intro a b h; exact (Box.IV.mk.inj h).2.2
    · refine List.Nodup.pairwise_of_forall_ne (Basis.loop_nodup _) ?_
      intro a _ b _ hab v hv hv'
      obtain ⟨z, _, rfl⟩ := List.mem_map.1 hv
      obtain ⟨z', _, h⟩ := List.mem_map.1 hv'
      exact hab (Box.IV.mk.inj h).2.1.symm
  · refine List.Nodup.pairwise_of_forall_ne (Basis.loop_nodup _) ?_
    intro a _ b _ hab v hv hv'
    obtain ⟨y, _, hv⟩ := List.mem_flatMap.1 hv
    obtain ⟨y', _, hv'⟩ := List.mem_flatMap.1 hv'
    obtain ⟨z, _, rfl⟩ := List.mem_map.1 hv
    obtain ⟨z', _, h⟩ := List.mem_map.1 hv'
    exact hab (Box.IV.mk.inj h).1.symm

theorem mem_cells (p : Inp) (h : ∀ l, 0 ≤ iCellMax p l) (c : Box.IV) : c ∈ cells p ↔
    (-iCellMax p 0 ≤ c.x ∧ c.x ≤ iCellMax p 0) ∧ (-iCellMax p 1 ≤ c.y ∧ c.y ≤ iCellMax p 1) ∧ (-iCellMax p 2 ≤ c.z ∧ c.z ≤ iCellMax p 2) := by
  unfold cells
  constructor
  · intro hc
    obtain ⟨x, hx, hc⟩ := List.mem_flatMap.1 hc
    obtain ⟨y, hy, hc⟩ := List.mem_flatMap.1 hc
    obtain ⟨z, hz, rfl⟩ := List.mem_map.1 hc
    exact ⟨(Basis.mem_loop _ (h 0) _).1 hx, (Basis.mem_loop _ (h 1) _).1 hy, (Basis.mem_loop _ (h 2) _).1 hz⟩
  · rintro ⟨h0, h1, h2⟩
    exact List.mem_flatMap.2 ⟨c.x, (Basis.mem_loop _ (h 0) _).2 h0, List.mem_flatMap.2 ⟨c.y, (Basis.mem_loop _ (h 1) _).2 h1,
          List.mem_map.2 ⟨c.z, (Basis.mem_loop _ (h 2) _).2 h2, rfl⟩⟩⟩

theorem weight_nonneg (p : Inp) (c : Box.IV) (a b : V3 ℝ) : 0 ≤ weight p c a b := by
  unfold weight
  simp only
  generalize tOf p c a b = t
  split
  · split
    · norm_num
    · rename_i h1 h2
      have : 2 - t * (3 - t * t) = (1 - t) ^ 2 * (2 + t) := by ring
      rw [this]
      have : 0 ≤ 2 + t := by linarith [not_le.1 h2]
      positivity
  · exact le_rfl

theorem weight_half (p : Inp) (c : Box.IV) (a b : V3 ℝ) (h : tOf p c a b ≤ 0) : 1 / 2 ≤ weight p c a b := by
  unfold weight
  simp only
  generalize tOf p c a b = t at h
  rw [if_pos (by linarith)]
  split
  · norm_num
  · rename_i h2
    have h2 := not_le.1 h2
    nlinarith [mul_nonneg (neg_nonneg.2 h) (by nlinarith : 0 ≤ 3 - t * t)]

theorem foldl_min_le (l : List (V3 ℝ)) (f : V3 ℝ → ℝ) (x : ℝ) : ∀ b, x ≤ b → (∀ r ∈ l, x ≤ f r) → x ≤ l.foldl (fun m r => min m (f r)) b := by
  induction l with
  | nil => intro b hb _; exact hb
  | cons a l ih =>
    intro b hb h
    exact ih _ (le_min hb (h a (by simp))) fun r hr => h r (by simp [hr])

theorem foldl_max_ge (l : List ℝ) : ∀ b, b ≤ l.foldl max b ∧ ∀ x ∈ l, x ≤ l.foldl max b := by
  induction l with
  | nil => intro b; exact ⟨le_rfl, by simp⟩
  | cons a l ih =>
    intro b
    have h := ih (max b a)
    refine ⟨le_trans (le_max_left _ _) h.1, ?_⟩
    intro x hx
    rcases List.mem_cons.1 hx with rfl | hx
    · exact le_trans (le_max_right _ _) h.1
    · exact h.2 x hx

theorem metric_eq (R : Mat ℝ) (v : V3 ℝ) : metricLengthSq (mulMM (transpose R) R) v = lenSq (mulMV R v) := by
  simp only [metricLengthSq, mulMM, transpose, lenSq, mulMV]; ring

theorem lenSq_nonneg (v : V3 ℝ) : 0 ≤ lenSq v := by
  unfold lenSq
  nlinarith [mul_self_nonneg (v 0), mul_self_nonneg (v 1), mul_self_nonneg (v 2)]

/-- Cauchy-Schwarz. -/
theorem dot_le (a b : V3 ℝ) : |dot a b| ≤ Real.sqrt (lenSq a) * Real.sqrt (lenSq b) := by
  rw [← Real.sqrt_mul (lenSq_nonneg a)]
  apply Real.abs_le_sqrt
  unfold dot lenSq
  nlinarith [sq_nonneg (a 0 * b 1 - a 1 * b 0), sq_nonneg (a 0 * b 2 - a 2 * b 0), sq_nonneg (a 1 * b 2 - a 2 * b 1)]

theorem sqrt_tri (a b : V3 ℝ) : Real.sqrt (lenSq fun i => a i + b i) ≤ Real.sqrt (lenSq a) + Real.sqrt (lenSq b) := by
  have ha := Real.sqrt_nonneg (lenSq a)
  have hb := Real.sqrt_nonneg (lenSq b)
  apply Real.sqrt_le_iff.2
  refine ⟨by linarith, ?_⟩
  have h1 := Real.sq_sqrt (lenSq_nonneg a)
  have h2 := Real.sq_sqrt (lenSq_nonneg b)
  have h3 := (abs_le.1 (dot_le a b)).2
  have h4 : lenSq (fun i => a i + b i) = lenSq a + 2 * dot a b + lenSq b := by simp only [lenSq, dot]; ring
  nlinarith

theorem iCellMax_nonneg (p : Inp) (hc : 0 ≤ p.circ) (l : Fin 3) : 0 ≤ iCellMax p l := by
  unfold iCellMax
  split
  · exact le_rfl
  · have : 0 ≤ ⌈rMax p * Basis.length (row (Basis.inv p.R) l)⌉ := by
      apply Int.ceil_nonneg
      unfold rMax Basis.length
      positivity
    omega

/-- Zero components in the truncated directions. -/
def Flat (p : Inp) (c : Box.IV) : Prop := ∀ l, p.trunc l = true → toV c l = 0

theorem cover_cell (p : Inp) (M : Mat Int) (D : Int) (hp : Super p M D) (hcov : Covers p M) (a b : V3 ℝ) (ha : a ∈ p.x1) (hb : b ∈ p.x2)
    (c : Box.IV) (hc : Flat p c) : ∃ c' ∈ cells p, SameClass M c c' ∧ tOf p c' a b ≤ 0 := by
  obtain ⟨hx, hcirc, hbig⟩ := hcov
  obtain ⟨n, hn0, hn1, hn2⟩ := hx (project p.trunc fun l => toV c l + b l - a l) (fun l hl => by simp [project, hl])
  set c' : Box.IV := ⟨c.x - mulMV M n 0, c.y - mulMV M n 1, c.z - mulMV M n 2⟩ with hc'
  have hc'v : ∀ l, toV c' l = toV c l - (mulMV M n l : ℤ) := by
    intro l
    match l with
    | 0 => show ((c.x - mulMV M n 0 : ℤ) : ℝ) = (c.x : ℝ) - _; push_cast; ring
    | 1 => show ((c.y - mulMV M n 1 : ℤ) : ℝ) = (c.y : ℝ) - _; push_cast; ring
    | 2 => show ((c.z - mulMV M n 2 : ℤ) : ℝ) = (c.z : ℝ) - _; push_cast; ring
  have hflat : Flat p c' := by
    intro l hl
    rw [hc'v, hc l hl, hn0 l hl]; simp
  have hdx : (project p.trunc fun l => toV c' l + b l - a l) = fun l => project p.trunc (fun l => toV c l + b l - a l) l - (mulMV M n l : ℤ) := by
    funext l
    unfold project
    by_cases hl : p.trunc l = true
    · simp [hl, hn0 l hl]
    · simp only [hl, Bool.false_eq_true, if_false]; rw [hc'v]; ring
  refine ⟨c', ?_, ?_, ?_⟩
  · rw [mem_cells p (iCellMax_nonneg p hcirc)]
    have key : ∀ l, -(iCellMax p l : ℝ) ≤ toV c' l ∧ toV c' l ≤ iCellMax p l := by
      intro l
      unfold iCellMax
      by_cases hl : p.trunc l = true
      · rw [if_pos hl, hflat l hl]; simp
      · rw [if_neg hl]
        have hlen : Real.sqrt (lenSq (mulMV p.R (toV c'))) ≤ rMax p := by
          have e : (mulMV p.R (toV c')) = fun i => mulMV p.R (project p.trunc fun l => toV c' l + b l - a l) i + mulMV p.R (project p.trunc (sub a b)) i := by
            rw [← mulMV_add]
            congr 1
            funext l
            unfold project sub
            by_cases hl : p.trunc l = true
            · simp [hl, hflat l hl]
            · simp only [hl, Bool.false_eq_true, if_false]; ring
          rw [e]
          refine le_trans (sqrt_tri _ _) ?_
          unfold rMax
          refine add_le_add ?_ ?_
          · rw [hdx]
            exact Real.sqrt_le_iff.2 ⟨hcirc, hn1⟩
          · apply Real.sqrt_le_sqrt
            rw [← metric_eq]
            exact (foldl_max_ge _ 0).2 _ (List.mem_flatMap.2 ⟨a, ha, List.mem_map.2 ⟨b, hb, rfl⟩⟩)
        have hrow : toV c' l = dot (row (Basis.inv p.R) l) (mulMV p.R (toV c')) := by
          have h1 := congrFun (inv_mul p.R hp.unit (toV c')) l
          rw [← h1]
          generalize mulMV p.R (toV c') = u
          simp only [mulMV, dot, row, vec]; ring
        have hcs := dot_le (row (Basis.inv p.R) l) (mulMV p.R (toV c'))
        rw [← hrow] at hcs
        have hb1 : |toV c' l| ≤ rMax p * Basis.length (row (Basis.inv p.R) l) := by
          refine le_trans hcs ?_
          rw [mul_comm]
          exact mul_le_mul_of_nonneg_right hlen (Real.sqrt_nonneg _)
        have hb2 := Int.le_ceil (rMax p * Basis.length (row (Basis.inv p.R) l))
        have hb3 := abs_le.1 hb1
        push_cast
        constructor <;> linarith [hb3.1, hb3.2]
    have k0 := key 0
    have k1 := key 1
    have k2 := key 2
    refine ⟨⟨?_, ?_⟩, ⟨?_, ?_⟩, ?_, ?_⟩
    · have : (-(iCellMax p 0 : ℝ)) ≤ (c'.x : ℝ) := k0.1
      exact_mod_cast this
    · have : (c'.x : ℝ) ≤ (iCellMax p 0 : ℝ) := k0.2
      exact_mod_cast this
    · have : (-(iCellMax p 1 : ℝ)) ≤ (c'.y : ℝ) := k1.1
      exact_mod_cast this
    · have : (c'.y : ℝ) ≤ (iCellMax p 1 : ℝ) := k1.2
      exact_mod_cast this
    · have : (-(iCellMax p 2 : ℝ)) ≤ (c'.z : ℝ) := k2.1
      exact_mod_cast this
    · have : (c'.z : ℝ) ≤ (iCellMax p 2 : ℝ) := k2.2
      exact_mod_cast this
  · refine ⟨fun i => -n i, ?_, ?_, ?_⟩ <;> rw [mulMV_neg] <;> simp only [hc'] <;> ring
  · unfold tOf
    simp only
    rw [hdx]
    set dr := mulMV p.R fun l => project p.trunc (fun l => toV c l + b l - a l) l - (mulMV M n l : ℤ)
    have hmin : lenSq dr ≤ p.neigh.foldl (fun m rSup => min m (lenSq (sub dr rSup))) p.big :=
      foldl_min_le p.neigh (fun r => lenSq (sub dr r)) _ _ (hbig dr hn1) hn2
    apply div_nonpos_of_nonpos_of_nonneg
    · nlinarith
    · exact hp.smooth.le

def rawCells (p : Inp) : List Box.IV := by
  classical exact (cells p).filter fun c => decide (∃ a ∈ p.x1, ∃ b ∈ p.x2, tOf p c a b < 1)

def cOf (p : Inp) (m : Nat) : Box.IV := ((rawCells p)[m]?).getD ⟨0, 0, 0⟩

theorem rawMap_mk (p : Inp) : rawMap p = mk (rawCells p).length (cOf p) (fun m => matrixOf p (cOf p m)) := by
  apply List.ext_getElem?
  intro n
  rw [mk_get]
  show ((rawCells p).map fun c => (⟨c, matrixOf p c⟩ : Entry))[n]? = _
  rw [List.getElem?_map]
  unfold cOf
  by_cases h : n < (rawCells p).length
  · rw [if_pos h, List.getElem?_eq_getElem h]; rfl
  · rw [if_neg h, List.getElem?_eq_none (by omega)]; rfl

theorem cOf_inj (p : Inp) : ∀ m < (rawCells p).length, ∀ m' < (rawCells p).length, cOf p m = cOf p m' → m = m' := by
  intro m hm m' hm' h
  unfold cOf at h
  rw [List.getElem?_eq_getElem hm, List.getElem?_eq_getElem hm'] at h
  have hnd : (rawCells p).Nodup := by
    unfold rawCells
    exact List.Nodup.filter _ (box_nodup _ _ _)
  exact (List.Nodup.getElem_inj_iff hnd).1 h

theorem mem_cOf (p : Inp) (c : Box.IV) (h : c ∈ rawCells p) : ∃ m < (rawCells p).length, cOf p m = c := by
  obtain ⟨m, hm, h⟩ := List.getElem_of_mem h
  refine ⟨m, hm, ?_⟩
  unfold cOf
  rw [List.getElem?_eq_getElem hm]; exact h

theorem cOf_mem (p : Inp) (m : Nat) (hm : m < (rawCells p).length) : cOf p m ∈ rawCells p := by
  unfold cOf
  rw [List.getElem?_eq_getElem hm]
  exact List.getElem_mem hm

theorem matrixOf_nonneg (p : Inp) (c : Box.IV) (i j : Nat) : 0 ≤ matrixOf p c i j := by
  unfold matrixOf
  split
  · exact weight_nonneg _ _ _ _
  · exact le_rfl

/-- Outcome of `getCellMap`. -/
theorem getCellMap_eq (p : Inp) (M : Mat Int) (D : Int) (hp : Super p M D) :
    let N := (rawCells p).length
    let t := T (equivB p) N (cOf p) fun m => matrixOf p (cOf p m)
    (getCellMap p = .ok (mk N (cOf p) fun m i j => 1 / t m i j * matrixOf p (cOf p m) i j) ∧
      ∀ r < N, ∀ i < p.x1.length, ∀ j < p.x2.length, p.tol < t r i j) ∨
    (getCellMap p = .error .die ∧ ¬ ∀ r < N, ∀ i < p.x1.length, ∀ j < p.x2.length, p.tol < t r i j) := by
  intro N t
  have hr : ∀ a, equivB p a a = true := fun a => (equivB_iff p M D hp a a).2 (same_refl M a)
  have hs : ∀ a b, equivB p a b = true → equivB p b a = true := fun a b h =>
    (equivB_iff p M D hp b a).2 (same_symm M _ _ ((equivB_iff p M D hp a b).1 h))
  have ht : ∀ a b d, equivB p a b = true → equivB p b d = true → equivB p a d = true := fun a b d h h' =>
    (equivB_iff p M D hp a d).2 (same_trans M _ _ _ ((equivB_iff p M D hp b d).1 h') ((equivB_iff p M D hp a b).1 h))
  unfold getCellMap
  rw [rawMap_mk]
  rcases normalise_eq (equivB p) p.tol p.x1.length p.x2.length N (cOf p) (fun m => matrixOf p (cOf p m)) (cOf_inj p) hr hs ht with ⟨d, h1, h2⟩ | ⟨h1, h2⟩
  · left; rw [h1]; exact ⟨rfl, h2⟩
  · right; rw [h1]; exact ⟨rfl, h2⟩

open Classical in
theorem mk_class_sum (N : Nat) (c : Nat → Box.IV) (w : Nat → Nat → Nat → ℝ) (P : Box.IV → Prop) (g : Entry → ℝ) :
    (((mk N c w).filter fun e => decide (P e.cell)).map g).sum = ∑ m ∈ (Finset.range N).filter (fun m => P (c m)), g ⟨c m, w m⟩ := by
  unfold mk
  rw [List.filter_map, List.map_map, ← List.sum_toFinset _ (List.Nodup.filter _ List.nodup_range)]
  have : ((List.range N).filter ((fun e : Entry => decide (P e.cell)) ∘ fun m => ⟨c m, w m⟩)).toFinset = (Finset.range N).filter fun m => P (c m) := by
    ext m
    simp
  rw [this]
  rfl

open Classical in
/-- When the cell map is returned, no cell appears twice, the weights are not negative, and for every cell of the map and every pair of
positions the weights of the cells that differ by supercell lattice vectors add up to one. -/
theorem C57_sum_partial (p : Inp) (M : Mat Int) (D : Int) (hp : Super p M D) (m : List Entry) (hm : getCellMap p = .ok m) :
    (m.map Entry.cell).Nodup ∧
    ∀ e ∈ m, ∀ i < p.x1.length, ∀ j < p.x2.length,
      0 ≤ e.w i j ∧ ((m.filter fun e' => decide (SameClass M e.cell e'.cell)).map fun e' => e'.w i j).sum = 1 := by
  have hN := getCellMap_eq p M D hp
  simp only at hN
  rcases hN with ⟨h1, h2⟩ | ⟨h1, _⟩
  swap
  · rw [h1] at hm; exact absurd hm (by simp)
  rw [hm] at h1
  have h1 := Except.ok.inj h1
  set N := (rawCells p).length with hNdef
  set t := T (equivB p) N (cOf p) fun m => matrixOf p (cOf p m) with ht
  have hr : ∀ a, equivB p a a = true := fun a => (equivB_iff p M D hp a a).2 (same_refl M a)
  refine ⟨?_, ?_⟩
  · rw [h1]
    unfold mk
    rw [List.map_map]
    refine (List.nodup_map_iff_inj_on List.nodup_range).2 ?_
    intro a ha b hb hab
    exact cOf_inj p a (List.mem_range.1 ha) b (List.mem_range.1 hb) hab
  · intro e he i hi j hj
    rw [h1] at he
    obtain ⟨n, hn, rfl⟩ := List.mem_map.1 he
    have hn := List.mem_range.1 hn
    have htpos : 0 < t n i j := lt_trans hp.tol0 (h2 n hn i hi j hj)
    refine ⟨?_, ?_⟩
    · have := matrixOf_nonneg p (cOf p n) i j
      simp only
      positivity
    · rw [h1, mk_class_sum]
      have hfil : (Finset.range N).filter (fun m => SameClass M (cOf p n) (cOf p m)) = (Finset.range N).filter (fun m => equivB p (cOf p m) (cOf p n) = true) := by
        apply Finset.filter_congr
        intro a _
        exact (equivB_iff p M D hp _ _).symm
      simp only
      rw [hfil]
      have hterm : ∀ a ∈ (Finset.range N).filter (fun m => equivB p (cOf p m) (cOf p n) = true),
          1 / t a i j * matrixOf p (cOf p a) i j = matrixOf p (cOf p a) i j / t n i j := by
        intro a ha
        have ha := (Finset.mem_filter.1 ha).2
        have : t a i j = t n i j := by
          rw [ht]
          refine T_congr (equivB p) N (cOf p) _ ?_ ?_ a n i j ha
          · exact fun a b h => (equivB_iff p M D hp b a).2 (same_symm M _ _ ((equivB_iff p M D hp a b).1 h))
          · exact fun a b d h h' => (equivB_iff p M D hp a d).2 (same_trans M _ _ _ ((equivB_iff p M D hp b d).1 h') ((equivB_iff p M D hp a b).1 h))
        rw [this]; ring
      rw [Finset.sum_congr rfl hterm, ← Finset.sum_div]
      exact div_self htpos.ne'

theorem mem_rawCells (p : Inp) (c : Box.IV) : c ∈ rawCells p ↔ c ∈ cells p ∧ ∃ a ∈ p.x1, ∃ b ∈ p.x2, tOf p c a b < 1 := by
  unfold rawCells
  rw [List.mem_filter, decide_eq_true_eq]

theorem flat_of_mem (p : Inp) (hc : 0 ≤ p.circ) (c : Box.IV) (h : c ∈ cells p) : Flat p c := by
  have h := (mem_cells p (iCellMax_nonneg p hc) c).1 h
  intro l hl
  have : iCellMax p l = 0 := by unfold iCellMax; rw [if_pos hl]
  match l with
  | 0 => have e : c.x = 0 := by omega
         show (c.x : ℝ) = 0; rw [e]; simp
  | 1 => have e : c.y = 0 := by omega
         show (c.y : ℝ) = 0; rw [e]; simp
  | 2 => have e : c.z = 0 := by omega
         show (c.z : ℝ) = 0; rw [e]; simp

/-- The cell map is returned, and contains a representative of every cell of the supercell lattice. -/
theorem C57_complete_partial (p : Inp) (M : Mat Int) (D : Int) (hp : Super p M D) (hcov : Covers p M) (htol : p.tol < 1 / 2) :
    ∃ m, getCellMap p = .ok m ∧ (∀ e ∈ m, Flat p e.cell) ∧
      (p.x1 ≠ [] → p.x2 ≠ [] → ∀ c, Flat p c → ∃ e ∈ m, SameClass M c e.cell) := by
  have hN := getCellMap_eq p M D hp
  simp only at hN
  have hflat : ∀ n < (rawCells p).length, Flat p (cOf p n) := fun n hn =>
    flat_of_mem p hcov.2.1 _ ((mem_rawCells p _).1 (cOf_mem p n hn)).1
  rcases hN with ⟨h1, h2⟩ | ⟨h1, h2⟩
  · refine ⟨_, h1, ?_, ?_⟩
    · intro e he
      obtain ⟨n, hn, rfl⟩ := List.mem_map.1 he
      exact hflat n (List.mem_range.1 hn)
    · intro e1 e2 c hc
      obtain ⟨a, ha⟩ := List.exists_mem_of_ne_nil _ e1
      obtain ⟨b, hb⟩ := List.exists_mem_of_ne_nil _ e2
      obtain ⟨c', hc', hs, ht⟩ := cover_cell p M D hp hcov a b ha hb c hc
      obtain ⟨n, hn, hn'⟩ := mem_cOf p c' ((mem_rawCells p c').2 ⟨hc', a, ha, b, hb, by linarith⟩)
      refine ⟨_, List.mem_map.2 ⟨n, List.mem_range.2 hn, rfl⟩, ?_⟩
      simp only
      rw [hn']; exact hs
  · exfalso
    apply h2
    intro r hr i hi j hj
    have ha := List.getElem_mem hi
    have hb := List.getElem_mem hj
    obtain ⟨c', hc', hs, ht⟩ := cover_cell p M D hp hcov _ _ ha hb (cOf p r) (hflat r hr)
    obtain ⟨n, hn, hn'⟩ := mem_cOf p c' ((mem_rawCells p c').2 ⟨hc', _, ha, _, hb, by linarith⟩)
    have hw : 1 / 2 ≤ matrixOf p (cOf p n) i j := by
      unfold matrixOf
      rw [List.getElem?_eq_getElem hi, List.getElem?_eq_getElem hj, hn']
      exact weight_half p c' _ _ ht
    refine lt_of_lt_of_le htol (le_trans hw ?_)
    unfold T
    refine Finset.single_le_sum (f := fun m => matrixOf p (cOf p m) i j) (fun m _ => matrixOf_nonneg p _ i j) ?_
    rw [Finset.mem_filter, Finset.mem_range]
    refine ⟨hn, ?_⟩
    rw [equivB_iff p M D hp, hn']; exact hs

/-- Transforming with the cell map loses nothing: for a quantity with the periodicity of the supercell, the weighted sum over the map is the
sum over one representative of each cell of the supercell. -/
theorem C57_transform_partial (p : Inp) (M : Mat Int) (D : Int) (hp : Super p M D) (hcov : Covers p M) (htol : p.tol < 1 / 2)
    (F : Box.IV → ℝ) (hF : ∀ c c', SameClass M c c' → F c = F c') (reps : Finset Box.IV)
    (hreps : ∀ c ∈ reps, Flat p c) (huniq : ∀ c, Flat p c → ∃ r ∈ reps, SameClass M c r ∧ ∀ r' ∈ reps, SameClass M c r' → r' = r)
    (i j : Nat) (hi : i < p.x1.length) (hj : j < p.x2.length) :
    ∃ m, getCellMap p = .ok m ∧ (m.map fun e => e.w i j * F e.cell).sum = ∑ c ∈ reps, F c := by
  classical
  obtain ⟨m, hm, hfl, hex⟩ := C57_complete_partial p M D hp hcov htol
  obtain ⟨hnd, hsum⟩ := C57_sum_partial p M D hp m hm
  refine ⟨m, hm, ?_⟩
  have hne1 : p.x1 ≠ [] := List.ne_nil_of_length_pos (by omega)
  have hne2 : p.x2 ≠ [] := List.ne_nil_of_length_pos (by omega)
  -- decompose each term over the representatives
  have hterm : ∀ e ∈ m, e.w i j * F e.cell = ∑ c ∈ reps, if SameClass M c e.cell then e.w i j * F c else 0 := by
    intro e he
    obtain ⟨r, hr, hs, hu⟩ := huniq e.cell (hfl e he)
    rw [Finset.sum_eq_single r]
    · rw [if_pos (same_symm M _ _ hs), hF _ _ hs]
    · intro c hc hne
      rw [if_neg]
      intro h
      exact hne (hu c hc (same_symm M _ _ h))
    · intro h; exact absurd hr h
  have hswap : ∀ l : List Entry, (l.map fun e => ∑ c ∈ reps, if SameClass M c e.cell then e.w i j * F c else 0).sum =
      ∑ c ∈ reps, ((l.filter fun e => decide (SameClass M c e.cell)).map fun e => e.w i j).sum * F c := by
    intro l
    induction l with
    | nil => simp
    | cons e l ih =>
      rw [List.map_cons, List.sum_cons, ih, ← Finset.sum_add_distrib]
      apply Finset.sum_congr rfl
      intro c _
      by_cases h : SameClass M c e.cell
      · rw [if_pos h, List.filter_cons_of_pos (by simpa using h), List.map_cons, List.sum_cons]; ring
      · rw [if_neg h, List.filter_cons_of_neg (by simpa using h)]; ring
  rw [List.map_congr_left hterm, hswap]
  apply Finset.sum_congr rfl
  intro c hc
  obtain ⟨e, he, hce⟩ := hex hne1 hne2 c (hreps c hc)
  have := (hsum e he i hi j hj).2
  have hfilter : (m.filter fun e' => decide (SameClass M c e'.cell)) = m.filter fun e' => decide (SameClass M e.cell e'.cell) := by
    apply List.filter_congr
    intro e' _
    rw [decide_eq_decide]
    exact ⟨fun h => same_trans M _ _ _ (same_symm M _ _ hce) h, fun h => same_trans M _ _ _ hce h⟩
  rw [hfilter, this, one_mul]

/-- A supercell of two unit cells of a cubic lattice, with its six nearest neighbours. -/
def exInp : Inp where
  R := diag 1 1 1
  Rsup := mulMM (diag 1 1 1) (castMat (diag 2 1 1))
  trunc := fun _ => false
  x1 := [vec 0 0 0, vec (1/2) (1/2) (1/2)]
  x2 := [vec 0 0 0]
  rSmooth := 1
  neigh := [vec 2 0 0, vec (-2) 0 0, vec 0 1 0, vec 0 (-1) 0, vec 0 0 1, vec 0 0 (-1)]
  circ := 2
  big := 1000
  tol := 1 / 10000

theorem exSuper : Super exInp (diag 2 1 1) 2 where
  unit := by simp [exInp, det, box, dot, cross, row, vec, diag]
  super := by decide
  sup := rfl
  denom := ⟨diag 1 2 2, fun v => by
    funext i
    match i with
    | 0 => simp [mulMV, diag, vec]
    | 1 => simp [mulMV, diag, vec]
    | 2 => simp [mulMV, diag, vec]⟩
  pos := by norm_num
  tol0 := by norm_num [exInp]
  tolD := by norm_num [exInp]
  smooth := by norm_num [exInp]

theorem exCovers : Covers exInp (diag 2 1 1) := by
  refine ⟨?_, by norm_num [exInp], ?_⟩
  · intro x _
    refine ⟨vec (round (x 0 / 2)) (round (x 1)) (round (x 2)), by intro l h; simp [exInp] at h, ?_⟩
    have e : (mulMV exInp.R fun l => x l - (mulMV (diag 2 1 1) (vec (round (x 0 / 2)) (round (x 1)) (round (x 2))) l : ℤ)) =
        vec (x 0 - 2 * round (x 0 / 2)) (x 1 - round (x 1)) (x 2 - round (x 2)) := by
      funext i
      match i with
      | 0 => simp [exInp, mulMV, diag, vec]
      | 1 => simp [exInp, mulMV, diag, vec]
      | 2 => simp [exInp, mulMV, diag, vec]
    rw [e]
    have h0 := abs_le.1 (abs_sub_round (x 0 / 2))
    have h1 := abs_le.1 (abs_sub_round (x 1))
    have h2 := abs_le.1 (abs_sub_round (x 2))
    have g0 : -1 ≤ x 0 - 2 * round (x 0 / 2) ∧ x 0 - 2 * round (x 0 / 2) ≤ 1 := by constructor <;> linarith [h0.1, h0.2]
    generalize x 0 - 2 * round (x 0 / 2) = a at *
    generalize x 1 - round (x 1) = b at *
    generalize x 2 - round (x 2) = d at *
    obtain ⟨g1, g2⟩ := g0
    obtain ⟨h11, h12⟩ := h1
    obtain ⟨h21, h22⟩ := h2
    constructor
    · simp only [lenSq, vec, exInp]
      nlinarith
    · intro r hr
      simp only [exInp, List.mem_cons, List.not_mem_nil, or_false] at hr
      rcases hr with rfl | rfl | rfl | rfl | rfl | rfl <;> simp only [lenSq, vec, sub] <;> nlinarith
  · intro x hx
    simp only [exInp] at hx ⊢
    linarith

/-- Before normalisation, the weight of a cell depends on the distance `t` of the pair from the boundary of the Wigner-Seitz supercell (in units of the smoothing width): it falls continuously and
monotonically from one, well inside, to zero, well outside, and the weights on the two sides of a face add up to one. -/
theorem C57_taper : ∃ f : ℝ → ℝ, (∀ p c a b, weight p c a b = f (tOf p c a b)) ∧ Continuous f ∧ Antitone f ∧ (∀ t ≤ -1, f t = 1) ∧ (∀ t ≥ 1, f t = 0) ∧
    ∀ t, f t + f (-t) = 1 := by
  classical
  let f : ℝ → ℝ := fun t => if t < 1 then (if t ≤ -1 then 1 else 0.25 * (2 - t * (3 - t * t))) else 0
  have lo : ∀ t ≤ -1, f t = 1 := fun t ht => by show (if t < 1 then _ else _) = _; rw [if_pos (by linarith), if_pos ht]
  have hi : ∀ t ≥ 1, f t = 0 := fun t ht => by show (if t < 1 then _ else _) = _; rw [if_neg (by linarith)]
  have mid : ∀ t, -1 ≤ t → t ≤ 1 → f t = 0.25 * (2 - t * (3 - t * t)) := by
    intro t h1 h2
    rcases eq_or_lt_of_le h1 with rfl | h1
    · rw [lo _ le_rfl]; norm_num
    rcases eq_or_lt_of_le h2 with rfl | h2
    · rw [hi _ le_rfl]; norm_num
    show (if t < 1 then _ else _) = _
    rw [if_pos h2, if_neg (by linarith)]
  have clamp : ∀ t, f t = 0.25 * (2 - max (-1) (min t 1) * (3 - max (-1) (min t 1) * max (-1) (min t 1))) := by
    intro t
    rw [← mid _ (le_max_left _ _) (max_le (by norm_num) (min_le_right _ _))]
    rcases le_total t (-1) with h | h
    · rw [min_eq_left (by linarith), max_eq_left h, lo t h, lo _ le_rfl]
    · rcases le_total t 1 with h' | h'
      · rw [min_eq_left h', max_eq_right h]
      · rw [min_eq_right h', max_eq_right (by norm_num), hi t h', hi _ le_rfl]
  refine ⟨f, fun p c a b => by unfold weight; rfl, ?_, ?_, lo, hi, ?_⟩
  · rw [show f = _ from funext clamp]
    fun_prop
  · intro s t hst
    rw [clamp s, clamp t]
    have h : max (-1) (min s 1) ≤ max (-1 : ℝ) (min t 1) := max_le_max le_rfl (min_le_min hst le_rfl)
    have s1 : -1 ≤ max (-1 : ℝ) (min s 1) := le_max_left _ _
    have t1 : max (-1 : ℝ) (min t 1) ≤ 1 := max_le (by norm_num) (min_le_right _ _)
    generalize max (-1 : ℝ) (min s 1) = x at *
    generalize max (-1 : ℝ) (min t 1) = y at *
    nlinarith [mul_nonneg (sub_nonneg.2 h) (add_nonneg (mul_nonneg (by linarith : 0 ≤ 1 - x) (by linarith : 0 ≤ 1 + x)) (mul_nonneg (by linarith : 0 ≤ 1 - y) (by linarith : 0 ≤ 1 + y))),
      mul_nonneg (sub_nonneg.2 h) (sq_nonneg (x - y)), mul_nonneg (sub_nonneg.2 h) (mul_nonneg (by linarith : 0 ≤ 1 + x) (by linarith : 0 ≤ 1 - y)),
      mul_nonneg (sub_nonneg.2 h) (mul_nonneg (by linarith : 0 ≤ 1 - x) (by linarith : 0 ≤ 1 + y))]
  · intro t
    rcases le_total t (-1) with h | h
    · rw [lo t h, hi (-t) (by linarith)]; norm_num
    · rcases le_total t 1 with h' | h'
      · rw [mid t h h', mid (-t) (by linarith) (by linarith)]; ring
      · rw [hi t h', lo (-t) (by linarith)]; norm_num

/-- The hypotheses of the theorems are met by the example. -/
example : ∃ m, getCellMap exInp = .ok m := by
  obtain ⟨m, h, _⟩ := C57_complete_partial exInp _ _ exSuper exCovers (by norm_num [exInp])
  exact ⟨m, h⟩

/-- With more than `1/symmThreshold` cells along one direction of the supercell, neighbouring cells pass the test for being equivalent: the bound on `D`
is needed. -/
theorem C57_threshold_violation (p : Inp) (hR : p.R = diag 1 1 1) (hS : p.Rsup = diag 20000 1 1) (ht : p.tol = 1 / 10000) :
    equivB p ⟨1, 0, 0⟩ ⟨0, 0, 0⟩ = true ∧ ¬ SameClass (diag 20000 1 1) ⟨0, 0, 0⟩ ⟨1, 0, 0⟩ := by
  constructor
  · unfold equivB
    rw [decide_eq_true_eq, hR, hS, ht]
    have hdet : det (diag (20000 : ℝ) 1 1) ≠ 0 := by simp [det, box, dot, cross, row, vec, diag]
    have e : mulMV (mulMM (Basis.inv (diag 20000 1 1)) (diag 1 1 1)) (toV ⟨1 - 0, 0 - 0, 0 - 0⟩) = vec (1 / 20000 : ℝ) 0 0 := by
      rw [mulMM_MV]
      have h2 : mulMV (diag (1 : ℝ) 1 1) (toV ⟨1 - 0, 0 - 0, 0 - 0⟩) = mulMV (diag (20000 : ℝ) 1 1) (vec (1 / 20000) 0 0) := by
        funext i
        match i with
        | 0 => simp [mulMV, diag, vec, toV]
        | 1 => simp [mulMV, diag, vec, toV]
        | 2 => simp [mulMV, diag, vec, toV]
      rw [h2, inv_mul _ hdet]
    rw [e]
    unfold roundErr Basis.length
    have hr : round (1 / 20000 : ℝ) = 0 := by
      rw [round_eq, Int.floor_eq_iff]
      norm_num
    simp only [vec, hr, round_zero]
    rw [Real.sqrt_lt' (by norm_num)]
    norm_num
  · rintro ⟨n, h, _⟩
    simp [mulMV, diag, vec] at h
    omega

end
end Jdftx.CellMap
