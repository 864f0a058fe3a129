import Verif.Lemmas.PhononFix
import Verif.Props.CellMap

/-!
# Lemmas for C98: the cell map
-/
namespace Jdftx.Phonon
noncomputable section
open M3 CellMap

/-! ### Opposite cells -/

theorem foldl_min_lb (l : List (V3 ℝ)) (f : V3 ℝ → ℝ) : ∀ b, l.foldl (fun m r => min m (f r)) b ≤ b ∧ ∀ r ∈ l, l.foldl (fun m r => min m (f r)) b ≤ f r := by
  induction l with
  | nil => intro b; simp
  | cons a l ih =>
    intro b
    have h := ih (min b (f a))
    rw [List.foldl_cons]
    refine ⟨h.1.trans (min_le_left _ _), fun r hr => ?_⟩
    rcases List.mem_cons.1 hr with rfl | hr
    · exact h.1.trans (min_le_right _ _)
    · exact h.2 r hr

/-- The neighbours come in opposite pairs. -/
def Even (p : Inp) : Prop := ∀ r ∈ p.neigh, (fun l => -r l) ∈ p.neigh

variable {p : Inp}

theorem foldl_neg (h : Even p) (v : V3 ℝ) : p.neigh.foldl (fun m r => min m (lenSq (sub (fun l => -v l) r))) p.big
    = p.neigh.foldl (fun m r => min m (lenSq (sub v r))) p.big := by
  have hn : ∀ r : V3 ℝ, lenSq (sub (fun l => -v l) r) = lenSq (sub v fun l => -r l) := by
    intro r; simp only [lenSq, sub]; ring
  have hn' : ∀ r : V3 ℝ, lenSq (sub v r) = lenSq (sub (fun l => -v l) fun l => -r l) := by
    intro r; simp only [lenSq, sub]; ring
  apply le_antisymm
  · refine foldl_min_le _ (fun r => lenSq (sub v r)) _ _ (foldl_min_lb _ _ _).1 fun r hr => ?_
    simp only [hn' r]
    exact (foldl_min_lb p.neigh (fun r => lenSq (sub (fun l => -v l) r)) p.big).2 _ (h r hr)
  · refine foldl_min_le _ (fun r => lenSq (sub (fun l => -v l) r)) _ _ (foldl_min_lb _ _ _).1 fun r hr => ?_
    simp only [hn r]
    exact (foldl_min_lb p.neigh (fun r => lenSq (sub v r)) p.big).2 _ (h r hr)

theorem toV_opp (c : Box.IV) (l : Fin 3) : toV (opp c) l = -toV c l := by
  unfold toV opp
  fin_cases l <;> simp [vec]

theorem tOf_opp (h : Even p) (c : Box.IV) (a b : V3 ℝ) : tOf p (opp c) b a = tOf p c a b := by
  unfold tOf
  have e : (mulMV p.R (project p.trunc fun l => toV (opp c) l + a l - b l)) = fun l => -(mulMV p.R (project p.trunc fun l => toV c l + b l - a l)) l := by
    have e1 : (project p.trunc fun l => toV (opp c) l + a l - b l) = fun l => -(project p.trunc fun l => toV c l + b l - a l) l := by
      funext l
      unfold project
      simp only [toV_opp]
      split <;> ring
    rw [e1]
    funext l
    simp only [mulMV]
    ring
  simp only [e, foldl_neg h]
  congr 2
  simp only [lenSq]
  ring

theorem matrixOf_opp (h : Even p) (hx : p.x1 = p.x2) (c : Box.IV) (i j : Nat) : matrixOf p (opp c) j i = matrixOf p c i j := by
  unfold matrixOf
  rw [hx]
  cases h1 : p.x2[i]? <;> cases h2 : p.x2[j]? <;> simp only
  unfold weight
  simp only [tOf_opp h]

theorem rawCells_opp (h : Even p) (hc : 0 ≤ p.circ) (hx : p.x1 = p.x2) {c : Box.IV} (hm : c ∈ rawCells p) : opp c ∈ rawCells p := by
  rw [mem_rawCells] at hm ⊢
  obtain ⟨h1, a, ha, b, hb, ht⟩ := hm
  refine ⟨?_, b, hx ▸ hb, a, hx ▸ ha, by rw [tOf_opp h]; exact ht⟩
  rw [mem_cells p (iCellMax_nonneg p hc)] at h1 ⊢
  unfold opp
  simp only
  omega

theorem same_opp (M : Mat Int) {c c' : Box.IV} (h : SameClass M c c') : SameClass M (opp c) (opp c') := by
  obtain ⟨n, h0, h1, h2⟩ := h
  refine ⟨fun i => -n i, ?_, ?_, ?_⟩ <;> simp only [opp, h0, h1, h2, mulMV] <;> ring

theorem equivB_opp {M : Mat Int} {D : Int} (hp : Super p M D) (c c' : Box.IV) : equivB p (opp c) (opp c') = true ↔ equivB p c c' = true := by
  rw [equivB_iff p M D hp, equivB_iff p M D hp]
  refine ⟨fun h => ?_, same_opp M⟩
  have := same_opp M h
  rwa [opp_opp, opp_opp] at this

theorem T_opp {M : Mat Int} {D : Int} (hp : Super p M D) (h : Even p) (hc : 0 ≤ p.circ) (hx : p.x1 = p.x2) {m m' : Nat}
    (e : cOf p m' = opp (cOf p m)) (i j : Nat) :
    T (equivB p) (rawCells p).length (cOf p) (fun m => matrixOf p (cOf p m)) m' j i = T (equivB p) (rawCells p).length (cOf p) (fun m => matrixOf p (cOf p m)) m i j := by
  have hpart : ∀ m < (rawCells p).length, ∃ m' < (rawCells p).length, cOf p m' = opp (cOf p m) := fun m hm =>
    mem_cOf p _ (rawCells_opp h hc hx (cOf_mem p m hm))
  choose! f hf hfc using hpart
  unfold T
  symm
  refine Finset.sum_bij (fun m _ => f m) ?_ ?_ ?_ ?_
  · intro a ha
    rw [Finset.mem_filter, Finset.mem_range] at ha ⊢
    refine ⟨hf a ha.1, ?_⟩
    rw [hfc a ha.1, e]
    exact (equivB_opp hp _ _).2 ha.2
  · intro a ha b hb hab
    rw [Finset.mem_filter, Finset.mem_range] at ha hb
    have h1 := hfc a ha.1
    have h2 := hfc b hb.1
    rw [hab, h2] at h1
    have := congrArg opp h1
    rw [opp_opp, opp_opp] at this
    exact cOf_inj p a ha.1 b hb.1 this.symm
  · intro b hb
    rw [Finset.mem_filter, Finset.mem_range] at hb
    have h1 : cOf p (f (f b)) = cOf p b := by rw [hfc _ (hf b hb.1), hfc b hb.1, opp_opp]
    refine ⟨f b, ?_, cOf_inj p _ (hf _ (hf b hb.1)) b hb.1 h1⟩
    rw [Finset.mem_filter, Finset.mem_range]
    refine ⟨hf b hb.1, ?_⟩
    rw [hfc b hb.1]
    have := (equivB_opp hp (cOf p b) (cOf p m')).2 hb.2
    rwa [e, opp_opp] at this
  · intro a ha
    rw [Finset.mem_filter, Finset.mem_range] at ha
    simp only [hfc a ha.1]
    exact (matrixOf_opp h hx _ _ _).symm

/-- The supercell matrix. -/
def supMat (S : Box.Size) : Mat Int := diag S.s0 S.s1 S.s2

theorem sameClass_iff (S : Box.Size) (c c' : Box.IV) : SameClass (supMat S) c c' ↔ SameCell S c c' := by
  unfold SameClass SameCell supMat
  constructor
  · rintro ⟨m, h0, h1, h2⟩
    simp only [mulMV, diag, vec] at h0 h1 h2
    refine ⟨⟨-m 0, ?_⟩, ⟨-m 1, ?_⟩, ⟨-m 2, ?_⟩⟩
    · rw [h0]; simp
    · rw [h1]; simp
    · rw [h2]; simp
  · rintro ⟨⟨x, hx⟩, ⟨y, hy⟩, ⟨z, hz⟩⟩
    refine ⟨vec (-x) (-y) (-z), ?_, ?_, ?_⟩
    · simp [mulMV, diag, vec]; linarith
    · simp [mulMV, diag, vec]; linarith
    · simp [mulMV, diag, vec]; linarith

/-- `sup` along one direction. -/
def supL (S : Box.Size) : Fin 3 → Nat := ![S.s0, S.s1, S.s2]

theorem mapOK {S : Box.Size} (hS : S.Pos) {D : Int} (hp : Super p (supMat S) D) (hcov : Covers p (supMat S)) (htol : p.tol < 1 / 2) (h : Even p)
    (hx : p.x1 = p.x2) (ht : ∀ l, p.trunc l = true → supL S l = 1) :
    ∃ m, getCellMap p = .ok m ∧ MapOK S p.x1.length m ∧ (∀ e ∈ m, ∀ a < p.x1.length, ∀ b < p.x1.length, 0 ≤ e.w a b) ∧
      ∀ e ∈ m, e.cell ∈ rawCells p := by
  classical
  obtain ⟨m, hm, hfl, hex⟩ := C57_complete_partial p _ D hp hcov htol
  obtain ⟨hnd, hsum⟩ := C57_sum_partial p _ D hp m hm
  have hN := getCellMap_eq p _ D hp
  simp only at hN
  rcases hN with ⟨h1, h2⟩ | ⟨h1, _⟩
  swap
  · rw [h1] at hm; exact absurd hm (by simp)
  rw [hm] at h1
  have h1 := Except.ok.inj h1
  refine ⟨m, hm, ⟨hnd, ?_, ?_⟩, ?_, ?_⟩
  · intro e he
    rw [h1] at he
    obtain ⟨r, hr, rfl⟩ := List.mem_map.1 he
    have hr := List.mem_range.1 hr
    obtain ⟨r', hr', e⟩ := mem_cOf p _ (rawCells_opp h hcov.2.1 hx (cOf_mem p r hr))
    refine ⟨⟨cOf p r', _⟩, by rw [h1]; exact List.mem_map_of_mem (List.mem_range.2 hr'), e, ?_⟩
    intro a _ b _
    simp only
    rw [T_opp hp h hcov.2.1 hx e, e, matrixOf_opp h hx]
  · intro u hu a ha b hb
    have hne : p.x1 ≠ [] := List.ne_nil_of_length_pos (by omega)
    -- a flat representative
    have hflat : Flat p (getCell S u) := by
      intro l hl
      have hs := ht l hl
      have hu' := uOf_getCell hS hu
      have hc := getCell_uOf hS (getCell S u)
      rw [hu'] at hc
      rw [hc]
      match l, hs with
      | 0, hs => have hs : S.s0 = 1 := hs
                 show (((getCell S u).x % (S.s0 : Int) : ℤ) : ℝ) = 0; rw [hs]; simp
      | 1, hs => have hs : S.s1 = 1 := hs
                 show (((getCell S u).y % (S.s1 : Int) : ℤ) : ℝ) = 0; rw [hs]; simp
      | 2, hs => have hs : S.s2 = 1 := hs
                 show (((getCell S u).z % (S.s2 : Int) : ℤ) : ℝ) = 0; rw [hs]; simp
    obtain ⟨e, he, hs⟩ := hex hne (hx ▸ hne) _ hflat
    have := (hsum e he a ha b (hx ▸ hb)).2
    rw [← this]
    congr 2
    apply List.filter_congr
    intro e' _
    apply decide_eq_decide.2
    rw [getUnit_nat hS, sameClass_iff, ← uOf_eq_iff hS]
    have e1 := (uOf_eq_iff hS _ _).2 ((sameClass_iff S _ _).1 hs)
    rw [uOf_getCell hS hu] at e1
    rw [← e1]
    constructor
    · intro h; exact_mod_cast h.symm
    · intro h; exact_mod_cast h.symm
  · intro e he a ha b hb
    exact (hsum e he a ha b (hx ▸ hb)).1
  · intro e he
    rw [h1] at he
    obtain ⟨r, hr, rfl⟩ := List.mem_map.1 he
    exact cOf_mem p r (List.mem_range.1 hr)

/-! ### Matrices on the cells of the map -/

variable {n : Nat} {S : Box.Size}

theorem remap_fst (map : List Entry) (G : Grads n) : (remap S map G).map Prod.fst = map := by
  unfold remap
  rw [List.map_map]
  exact List.map_id _

theorem remap_symm (hm : MapOK S n map) {G : Grads n} (hG : Symmetric S G) : ForceSymm (remap S map G) := by
  intro f hf
  obtain ⟨e, he, rfl⟩ := List.mem_map.1 hf
  obtain ⟨e', he', hc, hw⟩ := hm.opp e he
  refine ⟨_, List.mem_map_of_mem he', hc, ?_⟩
  intro i j
  show e'.w j.1 i.1 * G j i (getUnit S e'.cell).toNat = e.w i.1 j.1 * G i j (getUnit S e.cell).toNat
  rw [hw i.1 i.1.2 j.1 j.1.2, hc, ← hG i j e.cell]

/-- Weighted sums of periodic functions over the map are sums over the supercell. -/
theorem map_sum (hS : S.Pos) (hm : MapOK S n map) (a b : Fin n) (φ : Nat → ℂ) :
    (map.map fun e => (e.w a b : ℂ) * φ (getUnit S e.cell).toNat).sum = ∑ u ∈ Finset.range (prodSup S), φ u := by
  have key : ∀ L : List Entry, (L.map fun e => (e.w a b : ℂ) * φ (getUnit S e.cell).toNat).sum =
      ∑ u ∈ Finset.range (prodSup S), ((((L.filter fun e => decide (getUnit S e.cell = (u : Int))).map fun e => e.w a b).sum : ℝ) : ℂ) * φ u := by
    intro L
    induction L with
    | nil => simp
    | cons e L ih =>
      rw [List.map_cons, List.sum_cons, ih]
      have : ∀ u ∈ Finset.range (prodSup S), (((((e :: L).filter fun e => decide (getUnit S e.cell = (u : Int))).map fun e => e.w a b).sum : ℝ) : ℂ) * φ u =
          (if u = uOf S e.cell then (e.w a b : ℂ) * φ u else 0) + ((((L.filter fun e => decide (getUnit S e.cell = (u : Int))).map fun e => e.w a b).sum : ℝ) : ℂ) * φ u := by
        intro u _
        by_cases hu : u = uOf S e.cell
        · rw [if_pos hu, List.filter_cons_of_pos (by rw [getUnit_nat hS, hu]; simp), List.map_cons, List.sum_cons]
          push_cast
          ring
        · rw [if_neg hu, List.filter_cons_of_neg (by rw [getUnit_nat hS]; simp only [decide_eq_true_eq]; intro e; exact hu (by exact_mod_cast e.symm)), zero_add]
      rw [Finset.sum_congr rfl this, Finset.sum_add_distrib, Finset.sum_ite_eq', if_pos (Finset.mem_range.2 (uOf_lt hS _)), getUnit_toNat hS]
  rw [key]
  refine Finset.sum_congr rfl fun u hu => ?_
  rw [hm.one u (Finset.mem_range.1 hu) a a.2 b b.2]
  simp

theorem map_sum_real (hS : S.Pos) (hm : MapOK S n map) (a b : Fin n) (φ : Nat → ℝ) :
    (map.map fun e => e.w a b * φ (getUnit S e.cell).toNat).sum = ∑ u ∈ Finset.range (prodSup S), φ u := by
  have := map_sum hS hm a b fun u => (φ u : ℂ)
  have e : (map.map fun e => (e.w a b : ℂ) * (φ (getUnit S e.cell).toNat : ℂ)).sum = (((map.map fun e => e.w a b * φ (getUnit S e.cell).toNat).sum : ℝ) : ℂ) := by
    clear this hm
    induction map with
    | nil => simp
    | cons a L ih => simp only [List.map_cons, List.sum_cons, ih]; push_cast; rfl
  rw [e] at this
  exact_mod_cast this

theorem remap_sum (hS : S.Pos) (hm : MapOK S n map) {G : Grads n} (hG : SumRule S G) : ForceSum (remap S map G) := by
  intro i d
  rw [lsum_sum, lsum_sum]
  unfold remap
  simp only [List.map_map]
  have h := hG i d
  rw [Finset.sum_comm, Finset.sum_comm (f := fun R a => G (a, d) i R)] at h
  constructor
  · rw [← h.1]
    refine Finset.sum_congr rfl fun b _ => ?_
    exact map_sum_real hS hm i.1 b fun u => G i (b, d) u
  · rw [← h.2]
    refine Finset.sum_congr rfl fun a _ => ?_
    exact map_sum_real hS hm a i.1 fun u => G (a, d) i u

end
end Jdftx.Phonon
