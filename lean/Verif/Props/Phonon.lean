import Verif.Lemmas.PhononQuad

/-!
# C98: the phonon force matrix
-/
namespace Jdftx.Phonon
noncomputable section
open M3 Matrix

variable {n : Nat}

/-! ### Cells of the supercell -/

/-- Cells of the supercell and positions correspond one to one, and two cells have the same position if and only if they differ by a lattice vector of the
supercell. -/
theorem C98_cells (S : Box.Size) (hS : S.Pos) :
    (∀ u : Nat, u < prodSup S → getUnit S (getCell S u) = u ∧ 0 ≤ (getCell S u).x ∧ (getCell S u).x < S.s0 ∧ 0 ≤ (getCell S u).y ∧ (getCell S u).y < S.s1 ∧
      0 ≤ (getCell S u).z ∧ (getCell S u).z < S.s2) ∧
    (∀ c, 0 ≤ getUnit S c ∧ getUnit S c < prodSup S ∧ SameCell S (getCell S (getUnit S c)) c) ∧
    ∀ c c', getUnit S c = getUnit S c' ↔ SameCell S c c' := by
  refine ⟨fun u hu => ?_, fun c => ?_, fun c c' => ?_⟩
  · have e : getUnit S (getCell S u) = u := by rw [getUnit_nat hS, uOf_getCell hS hu]
    refine ⟨e, ?_⟩
    have e2 := getCell_uOf hS (getCell S u)
    rw [uOf_getCell hS hu] at e2
    have h0 := emod_lt hS.1 (getCell S u).x
    have h1 := emod_lt hS.2.1 (getCell S u).y
    have h2 := emod_lt hS.2.2 (getCell S u).z
    have ex := congrArg Box.IV.x e2
    have ey := congrArg Box.IV.y e2
    have ez := congrArg Box.IV.z e2
    simp only at ex ey ez
    refine ⟨?_, ?_, ?_, ?_, ?_, ?_⟩ <;> omega
  · rw [getUnit_nat hS]
    have := uOf_lt hS c
    exact ⟨by omega, by exact_mod_cast this, sameCell_getCell hS c⟩
  · rw [getUnit_nat hS, getUnit_nat hS, ← uOf_eq_iff hS]
    exact Int.ofNat_inj

example : getCell ⟨2, 3, 4⟩ 23 = ⟨1, 2, 3⟩ ∧ getUnit ⟨2, 3, 4⟩ ⟨-1, -1, -1⟩ = 23 := by decide

/-! ### Refinement of the gradients -/

/-- The refinement makes the gradients symmetric and free of net forces; it discards no imaginary part; it leaves gradients that have these properties as they
are; and no gradients with these properties are closer to the input than the result (by Pythagoras). -/
theorem C98_refine (S : Box.Size) (hS : S.Pos) (F : Grads n) :
    Symmetric S (dgradSymmetrize S F) ∧ SumRule S (dgradSymmetrize S F) ∧
    (∀ i j, ∀ R < prodSup S, (fromK S (fun k => fixK k (toK S F k)) i j R).im = 0) ∧
    (Symmetric S F → SumRule S F → ∀ i j, ∀ R < prodSup S, dgradSymmetrize S F i j R = F i j R) ∧
    ∀ G, Symmetric S G → SumRule S G → distSq S F G = distSq S F (dgradSymmetrize S F) + distSq S (dgradSymmetrize S F) G := by
  refine ⟨refine_symm hS F, refine_sum hS F, fun i j R hR => ?_, fun h h' i j R hR => refine_id hS h h' i j hR, fun G h h' => refine_closest hS F h h'⟩
  rw [dgradSymmetrize_eq hS F i j hR, Complex.ofReal_im]

/-- A chain of two cells with one atom each, with springs along the direction of displacement. -/
def exGrads : Grads 1 := fun i j R => if i.2 = j.2 then (if R = 0 then 2 else -2) else 0

def exSize : Box.Size := ⟨2, 1, 1⟩

theorem exSize_pos : exSize.Pos := by unfold exSize; exact ⟨by norm_num, by norm_num, by norm_num⟩

theorem exGrads_symm : Symmetric exSize exGrads := by
  rw [symmetric_iff exSize_pos]
  intro i j R hR
  have hR : R < 2 := hR
  have h0 : negU exSize 0 = 0 := by decide
  have h1 : negU exSize 1 = 1 := by decide
  interval_cases R
  · rw [h0]; unfold exGrads; simp [eq_comm]
  · rw [h1]; unfold exGrads; simp [eq_comm]

theorem exGrads_sum : SumRule exSize exGrads := by
  intro i d
  have : prodSup exSize = 2 := rfl
  rw [this]
  simp only [Finset.sum_range_succ, Finset.sum_range_zero, Finset.univ_unique, Finset.sum_singleton, exGrads]
  by_cases h : i.2 = d
  · simp [h]
  · simp [h, Ne.symm h]

example : Symmetric exSize exGrads ∧ SumRule exSize exGrads ∧ exGrads (0, 0) (0, 0) 0 ≠ 0 := ⟨exGrads_symm, exGrads_sum, by norm_num [exGrads]⟩

/-- Gradients that need refinement. -/
def exNoisy : Grads 1 := fun i j R => if i = j ∧ R = 0 then 3 else 0

example : ¬ SumRule exSize exNoisy := by
  intro h
  have h := (h (0, 0) 0).1
  have : prodSup exSize = 2 := rfl
  rw [this] at h
  simp [exNoisy] at h

/-! ### The cell map -/

/-- For any atoms and any supercell, the cell map is made, and it is suitable: distinct cells, weights of opposite cells related by exchange of the atoms, weights of
the images of each cell summing to one, no negative weights, and no displacement along truncated directions. -/
theorem C98_map (p : CellMap.Inp) (S : Box.Size) (hS : S.Pos) (D : Int) (hp : CellMap.Super p (diag S.s0 S.s1 S.s2) D)
    (hcov : CellMap.Covers p (diag S.s0 S.s1 S.s2)) (htol : p.tol < 1 / 2) (hneigh : ∀ r ∈ p.neigh, (fun l => -r l) ∈ p.neigh) (hx : p.x1 = p.x2)
    (ht : ∀ l, p.trunc l = true → (![S.s0, S.s1, S.s2] : Fin 3 → Nat) l = 1) :
    ∃ m, CellMap.getCellMap p = .ok m ∧ MapOK S p.x1.length m ∧ (∀ e ∈ m, ∀ a < p.x1.length, ∀ b < p.x1.length, 0 ≤ e.w a b) ∧
      ∀ e ∈ m, ∀ l, p.trunc l = true → CellMap.toV e.cell l = 0 := by
  obtain ⟨m, h1, h2, h3, h4⟩ := mapOK hS hp hcov htol hneigh hx ht
  exact ⟨m, h1, h2, h3, fun e he l hl => rawCells_flat hcov.2.1 (h4 e he) hl⟩

/-- A supercell of two cubes, with one atom per cell. -/
def exP : CellMap.Inp := { CellMap.exInp with x1 := [vec 0 0 0] }

theorem exP_super : CellMap.Super exP (diag 2 1 1) 2 :=
  ⟨CellMap.exSuper.unit, CellMap.exSuper.super, CellMap.exSuper.sup, CellMap.exSuper.denom, CellMap.exSuper.pos, CellMap.exSuper.tol0, CellMap.exSuper.tolD, CellMap.exSuper.smooth⟩

theorem exP_covers : CellMap.Covers exP (diag 2 1 1) := CellMap.exCovers

theorem exP_even : ∀ r ∈ exP.neigh, (fun l => -r l) ∈ exP.neigh := by
  have hv : ∀ a b c : ℝ, (fun l => -(vec a b c) l) = vec (-a) (-b) (-c) := by
    intro a b c; funext l; fin_cases l <;> rfl
  intro r hr
  simp only [exP, CellMap.exInp, List.mem_cons, List.not_mem_nil, or_false] at hr ⊢
  rcases hr with rfl | rfl | rfl | rfl | rfl | rfl <;> simp only [hv, neg_neg, neg_zero] <;> simp

example : ∃ m, CellMap.getCellMap exP = .ok m ∧ MapOK exSize 1 m := by
  obtain ⟨m, h1, h2, _⟩ := C98_map exP exSize exSize_pos 2 (by simpa [exSize] using exP_super) (by simpa [exSize] using exP_covers)
    (by norm_num [exP, CellMap.exInp]) exP_even rfl (by intro l h; simp [exP, CellMap.exInp] at h)
  exact ⟨m, h1, h2⟩

/-- Distributing the gradients over the cells of the map keeps them symmetric and free of net forces, and does not change the matrix at any wavevector that is
commensurate with the supercell. -/
theorem C98_remap (S : Box.Size) (hS : S.Pos) (map : List CellMap.Entry) (hm : MapOK S n map) (G : Grads n) :
    (Symmetric S G → ForceSymm (remap S map G)) ∧ (SumRule S G → ForceSum (remap S map G)) ∧
    ∀ (q : Box.IV) (i j : Mode n), omegaSqK (remap S map G) (vec (q.x / S.s0) (q.y / S.s1) (q.z / S.s2)) i j =
      ∑ u ∈ Finset.range (prodSup S), (G i j u : ℂ) *
        cis (2 * Real.pi * ((getCell S u).x * q.x / S.s0 + (getCell S u).y * q.y / S.s1 + (getCell S u).z * q.z / S.s2)) := by
  refine ⟨remap_symm hm, remap_sum hS hm, fun q i j => ?_⟩
  have hph : ∀ c : Box.IV, cis (2 * Real.pi * (c.x * q.x / S.s0 + c.y * q.y / S.s1 + c.z * q.z / S.s2)) =
      ExCorr.ph S.s0 q.x c.x * ExCorr.ph S.s1 q.y c.y * ExCorr.ph S.s2 q.z c.z := by
    intro c
    unfold ExCorr.ph
    rw [cis_exp, ← Complex.exp_add, ← Complex.exp_add]
    congr 1
    push_cast
    ring
  have hcell : ∀ c : Box.IV, cis (2 * Real.pi * ((getCell S (uOf S c)).x * q.x / S.s0 + (getCell S (uOf S c)).y * q.y / S.s1 + (getCell S (uOf S c)).z * q.z / S.s2)) =
      cis (2 * Real.pi * (c.x * q.x / S.s0 + c.y * q.y / S.s1 + c.z * q.z / S.s2)) := by
    intro c
    obtain ⟨h0, h1, h2⟩ := sameCell_getCell hS c
    rw [hph, hph, ph_congr hS.1 _ _ _ h0, ph_congr hS.2.1 _ _ _ h1, ph_congr hS.2.2 _ _ _ h2]
  rw [← map_sum hS hm i.1 j.1]
  unfold omegaSqK remap
  rw [Matrix.of_apply, List.map_map]
  congr 1
  refine List.map_congr_left fun e _ => ?_
  simp only [Function.comp, getUnit_toNat hS, hcell]
  have e1 : 2 * Real.pi * ((e.cell.x : ℝ) * (vec ((q.x : ℝ) / S.s0) (q.y / S.s1) (q.z / S.s2)) 0 + e.cell.y * (vec ((q.x : ℝ) / S.s0) (q.y / S.s1) (q.z / S.s2)) 1 + e.cell.z * (vec ((q.x : ℝ) / S.s0) (q.y / S.s1) (q.z / S.s2)) 2)
      = 2 * Real.pi * (e.cell.x * q.x / S.s0 + e.cell.y * q.y / S.s1 + e.cell.z * q.z / S.s2) := by
    simp only [vec]
    ring
  rw [e1]
  push_cast
  ring

/-! ### The correction of the derivative at the zone centre -/

/-- The check of hermiticity passes if and only if the map has the opposite of each of its cells (so it passes for the maps of `C98_map`). -/
theorem C98_herm_check (cells : List Box.IV) (h : cells.Nodup) : hermCheck cells = .ok () ↔ ∀ c ∈ cells, opp c ∈ cells := hermCheck_iff h

example : hermCheck [⟨0, 0, 0⟩, ⟨1, 0, 0⟩, ⟨-1, 0, 0⟩] = .ok () ∧ hermCheck [⟨0, 0, 0⟩, ⟨1, 0, 0⟩] = .error .die := by
  constructor <;> rfl

/-- When the correction gives a finite result, it keeps the cells, the symmetry and the absence of net forces, and it makes the acoustic force vanish to first order in
the wavevector. What is missing for the full property is that there is a finite result: see `C98_gamma_solvable` and the two theorems after it. -/
theorem C98_gamma_partial (g : Geom n) (hS : g.S.Pos) (F F' : Forces n) (hm : MapOK g.S n (F.map Prod.fst)) (hsy : ForceSymm F) (hsu : ForceSum F)
    (hax : ∀ l, g.trunc l = true → AxisOf g F l) (h : gammaFix g F = some F') :
    F'.map Prod.fst = F.map Prod.fst ∧ ForceSymm F' ∧ ForceSum F' ∧ SoundOK g F' := by
  obtain ⟨hd, rfl⟩ := gammaFix_some h
  have hs := fixed_sum (alphaInv g F)⁻¹ hS hm hsu
  exact ⟨fixed_fst _, fixed_symm _ hm hsy, hs, soundOK hs (err_fix_zero hS hm hsu hax hd)⟩

/-- There is a finite result when, for each direction that is not truncated, some pair of atoms occurs in the map with two different distances along this
direction. -/
theorem C98_gamma_solvable (g : Geom n) (hS : g.S.Pos) (F : Forces n) (hm : MapOK g.S n (F.map Prod.fst))
    (hax : ∀ l, g.trunc l = true → AxisOf g F l) (hw : ∀ f ∈ F, ∀ a b : Fin n, 0 ≤ f.1.w a b)
    (hsp : ∀ v : V3 ℝ, (∀ l, g.trunc l = true → v l = 0) → v ≠ 0 → ∃ f ∈ F, ∃ f' ∈ F, ∃ a b : Fin n, 0 < f.1.w a b ∧ 0 < f'.1.w a b ∧
      ∑ l, v l * dr g f.1 a b l ≠ ∑ l, v l * dr g f'.1 a b l) : ∃ F', gammaFix g F = some F' := by
  unfold gammaFix
  rw [if_neg (solvable hS hm hax ⟨hw, hsp⟩)]
  exact ⟨_, rfl⟩

/-- If a truncated lattice vector lies along a Cartesian axis whose number is not its own, there is no finite result, whatever the gradients: the code sets the
diagonal element for the number of the lattice vector, and leaves the element for the axis zero. -/
theorem C98_axes_fails (p : CellMap.Inp) (g : Geom n) (hR : g.R = p.R) (htr : g.trunc = p.trunc) (hS : g.S.Pos) (hn : p.x1.length = n) (D : Int)
    (hp : CellMap.Super p (diag g.S.s0 g.S.s1 g.S.s2) D)
    (hcov : CellMap.Covers p (diag g.S.s0 g.S.s1 g.S.s2)) (htol : p.tol < 1 / 2) (hneigh : ∀ r ∈ p.neigh, (fun l => -r l) ∈ p.neigh) (hx : p.x1 = p.x2)
    (ht : ∀ l, p.trunc l = true → (![g.S.s0, g.S.s1, g.S.s2] : Fin 3 → Nat) l = 1)
    (l m : Fin 3) (hl : p.trunc l = false) (hm : p.trunc m = true) (hrow : ∀ k, k ≠ m → p.R l k = 0) :
    ∃ map, CellMap.getCellMap p = .ok map ∧ ∀ G : Grads n, gammaFix g (remap g.S map G) = none := by
  obtain ⟨map, h1, h2, _, h4⟩ := C98_map p g.S hS D hp hcov htol hneigh hx ht
  refine ⟨map, h1, fun G => ?_⟩
  refine gammaFix_none (l := l) hS ?_ (axis_row (m := m) (by rw [hR]; exact hrow) ?_) (by rw [htr]; exact hl)
  · rw [remap_fst]; rw [hn] at h2; exact h2
  · intro f hf
    obtain ⟨e, he, rfl⟩ := List.mem_map.1 hf
    exact h4 e he m hm

/-- If the map has no cell but the unit cell itself, there is no finite result either, unless all directions are truncated. -/
theorem C98_single_fails (g : Geom n) (hS : g.S.Pos) (F : Forces n) (hm : MapOK g.S n (F.map Prod.fst)) (h0 : ∀ f ∈ F, f.1.cell = ⟨0, 0, 0⟩)
    (l : Fin 3) (hl : g.trunc l = false) : gammaFix g F = none := by
  refine gammaFix_none (l := l) hS hm ?_ hl
  refine ⟨fun a => mulMV g.R (g.x a) l, fun f hf a b => ?_⟩
  unfold dr
  rw [h0 f hf]
  have : ∀ k, CellMap.toV ⟨0, 0, 0⟩ k = 0 := by intro k; fin_cases k <;> simp [CellMap.toV, vec]
  unfold mulMV
  simp only [this]
  ring

/-! #### Examples -/

/-- A wire: one periodic direction, two cells. -/
def exWire : Geom 1 := ⟨exSize, diag 1 1 1, fun _ => vec 0 0 0, ![false, true, true]⟩

def exMap : List CellMap.Entry := [⟨⟨0, 0, 0⟩, fun _ _ => 1⟩, ⟨⟨1, 0, 0⟩, fun _ _ => 1 / 2⟩, ⟨⟨-1, 0, 0⟩, fun _ _ => 1 / 2⟩]

theorem exMap_ok : MapOK exSize 1 exMap where
  nodup := by
    show [(⟨0, 0, 0⟩ : Box.IV), ⟨1, 0, 0⟩, ⟨-1, 0, 0⟩].Nodup
    decide
  opp := by
    intro e he
    simp only [exMap, List.mem_cons, List.not_mem_nil, or_false] at he
    rcases he with rfl | rfl | rfl
    · exact ⟨⟨⟨0, 0, 0⟩, fun _ _ => 1⟩, by simp [exMap], rfl, fun _ _ _ _ => rfl⟩
    · exact ⟨⟨⟨-1, 0, 0⟩, fun _ _ => 1 / 2⟩, by simp [exMap], rfl, fun _ _ _ _ => rfl⟩
    · exact ⟨⟨⟨1, 0, 0⟩, fun _ _ => 1 / 2⟩, by simp [exMap], rfl, fun _ _ _ _ => rfl⟩
  one := by
    intro u hu a _ b _
    have hu : u < 2 := hu
    have h0 : getUnit exSize ⟨0, 0, 0⟩ = 0 := by decide
    have h1 : getUnit exSize ⟨1, 0, 0⟩ = 1 := by decide
    have h2 : getUnit exSize ⟨-1, 0, 0⟩ = 1 := by decide
    interval_cases u
    · simp [exMap, List.filter, h0, h1, h2]
    · simp [exMap, List.filter, h0, h1, h2]; norm_num

theorem exWire_fst : (remap exSize exMap exGrads).map Prod.fst = exMap := remap_fst _ _

theorem exWire_axis : ∀ l, exWire.trunc l = true → AxisOf exWire (remap exSize exMap exGrads) l := by
  intro l hl
  refine axis_row (m := l) ?_ ?_
  · intro k hk
    fin_cases l <;> fin_cases k <;> simp [exWire, M3.diag] at hk hl ⊢
  · intro f hf
    obtain ⟨e, he, rfl⟩ := List.mem_map.1 hf
    simp only [exMap, List.mem_cons, List.not_mem_nil, or_false] at he
    rcases he with rfl | rfl | rfl <;> fin_cases l <;> simp [exWire, CellMap.toV, vec] at hl ⊢

example : ∃ F', gammaFix exWire (remap exSize exMap exGrads) = some F' ∧ ForceSymm F' ∧ ForceSum F' ∧ SoundOK exWire F' := by
  have hm : MapOK exWire.S 1 ((remap exSize exMap exGrads).map Prod.fst) := by rw [exWire_fst]; exact exMap_ok
  have hr := C98_remap exSize exSize_pos exMap exMap_ok exGrads
  obtain ⟨F', h⟩ := C98_gamma_solvable exWire exSize_pos _ hm exWire_axis (by
    intro f hf a b
    obtain ⟨e, he, rfl⟩ := List.mem_map.1 hf
    simp only [exMap, List.mem_cons, List.not_mem_nil, or_false] at he
    rcases he with rfl | rfl | rfl <;> norm_num) (by
    intro v h0 hv
    have h1 : v 1 = 0 := h0 1 rfl
    have h2 : v 2 = 0 := h0 2 rfl
    have hv0 : v 0 ≠ 0 := by
      intro h; apply hv; funext l; fin_cases l
      · exact h
      · exact h1
      · exact h2
    refine ⟨_, List.mem_map_of_mem (show ⟨⟨0, 0, 0⟩, fun _ _ => 1⟩ ∈ exMap by simp [exMap]), _,
      List.mem_map_of_mem (show ⟨⟨1, 0, 0⟩, fun _ _ => 1 / 2⟩ ∈ exMap by simp [exMap]), 0, 0, by norm_num, by norm_num, ?_⟩
    simp only [Fin.sum_univ_three, h1, h2, zero_mul, add_zero]
    simp [dr, mulMV, exWire, M3.diag, vec, CellMap.toV]
    exact Ne.symm hv0)
  obtain ⟨_, h1, h2, h3⟩ := C98_gamma_partial exWire exSize_pos _ F' hm (hr.1 exGrads_symm) (hr.2.1 exGrads_sum) exWire_axis h
  exact ⟨F', h, h1, h2, h3⟩

/-- A slab whose truncated lattice vector, the third one, lies along the first Cartesian axis. -/
def exSlab : CellMap.Inp where
  R := fun i => vec (vec 0 0 1) (vec 1 0 0) (vec 0 1 0) i
  Rsup := mulMM (fun i => vec (vec 0 0 1) (vec 1 0 0) (vec 0 1 0) i) (castMat (M3.diag 2 1 1))
  trunc := ![false, false, true]
  x1 := [vec 0 0 0]
  x2 := [vec 0 0 0]
  rSmooth := 1
  neigh := [vec 0 2 0, vec 0 (-2) 0, vec 0 0 1, vec 0 0 (-1)]
  circ := 2
  big := 1000
  tol := 1 / 10000

theorem exSlab_super : CellMap.Super exSlab (M3.diag 2 1 1) 2 where
  unit := by simp [exSlab, M3.det, M3.box, dot, M3.cross, M3.row, vec]
  super := by decide
  sup := rfl
  denom := CellMap.exSuper.denom
  pos := by norm_num
  tol0 := by norm_num [exSlab]
  tolD := by norm_num [exSlab]
  smooth := by norm_num [exSlab]

theorem exSlab_covers : CellMap.Covers exSlab (M3.diag 2 1 1) := by
  refine ⟨?_, by norm_num [exSlab], ?_⟩
  · intro x hx
    have hx2 : x 2 = 0 := hx 2 rfl
    refine ⟨vec (round (x 0 / 2)) (round (x 1)) 0, ?_, ?_⟩
    · intro l hl
      fin_cases l <;> simp [exSlab, mulMV, M3.diag, vec] at hl ⊢
    have e : (mulMV exSlab.R fun l => x l - (mulMV (M3.diag 2 1 1) (vec (round (x 0 / 2)) (round (x 1)) 0) l : ℤ)) =
        vec 0 (x 0 - 2 * round (x 0 / 2)) (x 1 - round (x 1)) := by
      funext i
      match i with
      | 0 => simp [exSlab, mulMV, M3.diag, vec, hx2]
      | 1 => simp [exSlab, mulMV, M3.diag, vec]
      | 2 => simp [exSlab, mulMV, M3.diag, vec]
    rw [e]
    have h0 := abs_le.1 (abs_sub_round (x 0 / 2))
    have h1 := abs_le.1 (abs_sub_round (x 1))
    have g0 : -1 ≤ x 0 - 2 * round (x 0 / 2) ∧ x 0 - 2 * round (x 0 / 2) ≤ 1 := by constructor <;> linarith [h0.1, h0.2]
    generalize x 0 - 2 * round (x 0 / 2) = a at *
    generalize x 1 - round (x 1) = b at *
    obtain ⟨g1, g2⟩ := g0
    obtain ⟨h11, h12⟩ := h1
    constructor
    · simp only [CellMap.lenSq, vec, exSlab]
      nlinarith
    · intro r hr
      simp only [exSlab, List.mem_cons, List.not_mem_nil, or_false] at hr
      rcases hr with rfl | rfl | rfl | rfl <;> simp only [CellMap.lenSq, vec, CellMap.sub] <;> nlinarith
  · intro x hx
    simp only [exSlab] at hx ⊢
    linarith

theorem vec_neg (a b c : ℝ) : (fun l => -(vec a b c) l) = vec (-a) (-b) (-c) := by
  funext l; fin_cases l <;> rfl

/-- The slab with one atom per cell: no finite result, whatever the gradients. -/
example : ∃ map, CellMap.getCellMap exSlab = .ok map ∧
    ∀ G : Grads 1, gammaFix ⟨exSize, exSlab.R, fun _ => vec 0 0 0, exSlab.trunc⟩ (remap exSize map G) = none :=
  C98_axes_fails exSlab ⟨exSize, exSlab.R, fun _ => vec 0 0 0, exSlab.trunc⟩ rfl rfl exSize_pos rfl 2 (by simpa [exSize] using exSlab_super)
    (by simpa [exSize] using exSlab_covers) (by norm_num [exSlab]) (by
      intro r hr
      simp only [exSlab, List.mem_cons, List.not_mem_nil, or_false] at hr ⊢
      rcases hr with rfl | rfl | rfl | rfl <;> simp only [vec_neg, neg_neg, neg_zero] <;> simp) rfl (by
      intro l hl; fin_cases l <;> simp [exSlab, exSize] at hl ⊢) 0 2 rfl rfl (by
      intro k hk; fin_cases k <;> simp [exSlab, vec] at hk ⊢)

/-- One atom in a cubic cell of side 10, and a supercell of one cell. -/
def exCube : CellMap.Inp where
  R := M3.diag 10 10 10
  Rsup := mulMM (M3.diag 10 10 10) (castMat (M3.diag 1 1 1))
  trunc := fun _ => false
  x1 := [vec 0 0 0]
  x2 := [vec 0 0 0]
  rSmooth := 1
  neigh := [vec 10 0 0, vec (-10) 0 0, vec 0 10 0, vec 0 (-10) 0, vec 0 0 10, vec 0 0 (-10)]
  circ := 10
  big := 1000000
  tol := 1 / 10000

theorem exCube_super : CellMap.Super exCube (M3.diag 1 1 1) 1 where
  unit := by simp [exCube, M3.det, M3.box, dot, M3.cross, M3.row, vec, M3.diag]
  super := by decide
  sup := rfl
  denom := ⟨M3.diag 1 1 1, fun v => by
    funext i
    match i with
    | 0 => simp [mulMV, M3.diag, vec]
    | 1 => simp [mulMV, M3.diag, vec]
    | 2 => simp [mulMV, M3.diag, vec]⟩
  pos := by norm_num
  tol0 := by norm_num [exCube]
  tolD := by norm_num [exCube]
  smooth := by norm_num [exCube]

theorem exCube_covers : CellMap.Covers exCube (M3.diag 1 1 1) := by
  refine ⟨?_, by norm_num [exCube], ?_⟩
  · intro x _
    refine ⟨vec (round (x 0)) (round (x 1)) (round (x 2)), by intro l h; simp [exCube] at h, ?_⟩
    have e : (mulMV exCube.R fun l => x l - (mulMV (M3.diag 1 1 1) (vec (round (x 0)) (round (x 1)) (round (x 2))) l : ℤ)) =
        vec (10 * (x 0 - round (x 0))) (10 * (x 1 - round (x 1))) (10 * (x 2 - round (x 2))) := by
      funext i
      match i with
      | 0 => simp [exCube, mulMV, M3.diag, vec]
      | 1 => simp [exCube, mulMV, M3.diag, vec]
      | 2 => simp [exCube, mulMV, M3.diag, vec]
    rw [e]
    obtain ⟨h01, h02⟩ := abs_le.1 (abs_sub_round (x 0))
    obtain ⟨h11, h12⟩ := abs_le.1 (abs_sub_round (x 1))
    obtain ⟨h21, h22⟩ := abs_le.1 (abs_sub_round (x 2))
    generalize x 0 - round (x 0) = a at *
    generalize x 1 - round (x 1) = b at *
    generalize x 2 - round (x 2) = d at *
    constructor
    · simp only [CellMap.lenSq, vec, exCube]
      nlinarith
    · intro r hr
      simp only [exCube, List.mem_cons, List.not_mem_nil, or_false] at hr
      rcases hr with rfl | rfl | rfl | rfl | rfl | rfl <;> simp only [CellMap.lenSq, vec, CellMap.sub] <;> nlinarith
  · intro x hx
    simp only [exCube] at hx ⊢
    linarith

theorem exCube_cell {c : Box.IV} (h : c ∈ CellMap.rawCells exCube) : c = ⟨0, 0, 0⟩ := by
  rw [CellMap.mem_rawCells] at h
  obtain ⟨_, a, ha, b, hb, ht⟩ := h
  have ha : a = vec 0 0 0 := by simpa [exCube] using ha
  have hb : b = vec 0 0 0 := by simpa [exCube] using hb
  subst ha; subst hb
  have e : (mulMV exCube.R (CellMap.project exCube.trunc fun l => CellMap.toV c l + vec 0 0 0 l - vec 0 0 0 l)) = vec (10 * (c.x : ℝ)) (10 * c.y) (10 * c.z) := by
    funext i
    match i with
    | 0 => simp [exCube, mulMV, M3.diag, vec, CellMap.project, CellMap.toV]
    | 1 => simp [exCube, mulMV, M3.diag, vec, CellMap.project, CellMap.toV]
    | 2 => simp [exCube, mulMV, M3.diag, vec, CellMap.project, CellMap.toV]
  have key : ∀ r ∈ exCube.neigh, CellMap.lenSq (vec (10 * c.x : ℝ) (10 * c.y) (10 * c.z)) - CellMap.lenSq (CellMap.sub (vec (10 * c.x) (10 * c.y) (10 * c.z)) r) < 2 := by
    intro r hr
    unfold CellMap.tOf at ht
    simp only [e] at ht
    have h2 := (foldl_min_lb exCube.neigh (fun r => CellMap.lenSq (CellMap.sub (vec (10 * c.x) (10 * c.y) (10 * c.z)) r)) exCube.big).2 r hr
    have h1 : exCube.rSmooth = 1 := rfl
    rw [h1, div_one] at ht
    linarith
  have k : ∀ r ∈ exCube.neigh, _ := key
  simp only [exCube, List.mem_cons, List.not_mem_nil, or_false, forall_eq_or_imp, forall_eq, CellMap.lenSq, CellMap.sub, vec] at k
  obtain ⟨k1, k2, k3, k4, k5, k6⟩ := k
  have z : ∀ m : Int, 200 * (m : ℝ) - 100 < 2 → -200 * (m : ℝ) - 100 < 2 → m = 0 := by
    intro m h1 h2
    have h1 : 200 * m - 100 < 2 := by exact_mod_cast h1
    have h2 : -200 * m - 100 < 2 := by exact_mod_cast h2
    omega
  cases c
  simp only [Box.IV.mk.injEq]
  exact ⟨z _ (by nlinarith) (by nlinarith), z _ (by nlinarith) (by nlinarith), z _ (by nlinarith) (by nlinarith)⟩

/-- The cube: no finite result, whatever the gradients. -/
example : ∃ map, CellMap.getCellMap exCube = .ok map ∧
    ∀ G : Grads 1, gammaFix ⟨⟨1, 1, 1⟩, exCube.R, fun _ => vec 0 0 0, exCube.trunc⟩ (remap ⟨1, 1, 1⟩ map G) = none := by
  have hS : (⟨1, 1, 1⟩ : Box.Size).Pos := ⟨by norm_num, by norm_num, by norm_num⟩
  have heven : ∀ r ∈ exCube.neigh, (fun l => -r l) ∈ exCube.neigh := by
    intro r hr
    simp only [exCube, List.mem_cons, List.not_mem_nil, or_false] at hr ⊢
    rcases hr with rfl | rfl | rfl | rfl | rfl | rfl <;> simp only [vec_neg, neg_neg, neg_zero] <;> simp
  obtain ⟨map, h1, h2, _, h4⟩ := mapOK (p := exCube) (S := ⟨1, 1, 1⟩) hS (D := 1) (by simpa [supMat] using exCube_super) (by simpa [supMat] using exCube_covers)
    (by norm_num [exCube]) heven rfl (by intro l h; simp [exCube] at h)
  refine ⟨map, h1, fun G => C98_single_fails _ hS _ (by rw [remap_fst]; exact h2) ?_ 0 rfl⟩
  intro f hf
  obtain ⟨e, he, rfl⟩ := List.mem_map.1 hf
  exact exCube_cell (h4 e he)

/-! ### Frequencies -/

/-- The matrix of squared frequencies is Hermitian at every wavevector (the code's symmetrization changes nothing), and a common displacement of all atoms in any direction
has zero frequency at the zone centre. -/
theorem C98_acoustic (M : Fin n → ℝ) (hM : ∀ a, 0 < M a) (F : Forces n) (hnd : (F.map fun f => f.1.cell).Nodup) (hsy : ForceSymm F) (hsu : ForceSum F) :
    (∀ k, (omegaSqK (omegaSq M F) k)ᴴ = omegaSqK (omegaSq M F) k ∧ daggerSymm (omegaSqK (omegaSq M F) k) = omegaSqK (omegaSq M F) k) ∧
    ∀ d : Fin 3, omegaSqK (omegaSq M F) 0 *ᵥ (fun m : Mode n => if m.2 = d then (Real.sqrt (M m.1) : ℂ) else 0) = 0 := by
  have hh : ∀ k, (omegaSqK (omegaSq M F) k)ᴴ = omegaSqK (omegaSq M F) k := fun k =>
    omegaSqK_herm (by unfold omegaSq; rw [List.map_map]; exact hnd) (omegaSq_symm M hsy) k
  refine ⟨fun k => ⟨hh k, ?_⟩, fun d => omegaSq_null M hM hsu d⟩
  unfold daggerSymm
  rw [hh k, ← two_smul ℂ, smul_smul]
  norm_num

example : ∃ F : Forces 1, (F.map fun f => f.1.cell).Nodup ∧ ForceSymm F ∧ ForceSum F ∧ ∃ f ∈ F, f.2 (0, 0) (0, 0) ≠ 0 := by
  have hr := C98_remap exSize exSize_pos exMap exMap_ok exGrads
  refine ⟨remap exSize exMap exGrads, ?_, hr.1 exGrads_symm, hr.2.1 exGrads_sum,
    _, List.mem_map_of_mem (show ⟨⟨0, 0, 0⟩, fun _ _ => 1⟩ ∈ exMap by simp [exMap]), ?_⟩
  · have := exMap_ok.nodup
    rw [← exWire_fst, List.map_map] at this
    exact this
  · have h0 : getUnit exSize ⟨0, 0, 0⟩ = 0 := by decide
    simp [exGrads, h0]

/-! ### Free energies -/

/-- Each eigenvalue `w^2` above zero contributes the zero-point energy, mean energy and free energy of the levels `(k+1/2)w` of a harmonic oscillator, times its
weight; other eigenvalues contribute nothing. -/
theorem C98_free_energy (T : ℝ) (hT : 0 < T) (quad : List (ℝ × List ℝ)) :
    (freeEnergy T quad).zpe = (quad.map fun q => (q.2.map fun eig => if 0 < eig then q.1 * level (Real.sqrt eig) 0 else 0).sum).sum ∧
    (freeEnergy T quad).e = (quad.map fun q => (q.2.map fun eig => if 0 < eig then q.1 * meanEnergy T (Real.sqrt eig) else 0).sum).sum ∧
    (freeEnergy T quad).a = (quad.map fun q => (q.2.map fun eig => if 0 < eig then q.1 * helmholtz T (Real.sqrt eig) else 0).sum).sum := by
  have hmode : ∀ w eig, modeFree T w eig = ⟨if 0 < eig then w * level (Real.sqrt eig) 0 else 0, if 0 < eig then w * meanEnergy T (Real.sqrt eig) else 0,
      if 0 < eig then w * helmholtz T (Real.sqrt eig) else 0⟩ := by
    intro w eig
    unfold modeFree
    by_cases h : eig ≤ 0
    · simp only [if_pos h, if_neg (not_lt.2 h)]
    · have h := not_le.1 h
      simp only [if_neg (not_le.2 h), if_pos h]
      have ho : 0 < Real.sqrt eig := Real.sqrt_pos.2 h
      generalize Real.sqrt eig = o at ho
      have hA := osc_A T o hT ho
      have hE := osc_E T o hT ho
      have hZ := osc_Z T o hT ho
      obtain ⟨h0, h1⟩ := exp_lt T o hT ho
      have hZ0 : Real.exp (-o / (2 * T)) / (1 - Real.exp (-o / T)) ≠ 0 := (div_pos (Real.exp_pos _) (by linarith)).ne'
      unfold helmholtz meanEnergy partition level
      rw [hA, hE, hZ, mul_div_cancel_left₀ _ hZ0]
      congr 1
      · push_cast; ring
      · ring
      · ring
  unfold freeEnergy
  simp only [List.map_flatMap, List.map_map, flatMap_sum]
  refine ⟨?_, ?_, ?_⟩ <;> congr 1 <;> refine List.map_congr_left fun q _ => ?_ <;> congr 1 <;> refine List.map_congr_left fun eig _ => ?_ <;>
    simp only [Function.comp, hmode]

/-- The free energies are consistent: the derivative of `A` with respect to temperature is minus the entropy `(E-A)/T`, and `A`, the zero-point energy and `E` are in
ascending order. -/
theorem C98_thermodynamics (T : ℝ) (hT : 0 < T) (quad : List (ℝ × List ℝ)) (hw : ∀ q ∈ quad, 0 ≤ q.1) :
    HasDerivAt (fun T => (freeEnergy T quad).a) (-((freeEnergy T quad).e - (freeEnergy T quad).a) / T) T ∧
    (freeEnergy T quad).a ≤ (freeEnergy T quad).zpe ∧ (freeEnergy T quad).zpe ≤ (freeEnergy T quad).e := by
  have hfw : ∀ p ∈ flat quad, 0 ≤ p.1 := by
    intro p hp
    unfold flat at hp
    simp only [List.mem_flatMap, List.mem_map] at hp
    obtain ⟨q, hq, e, _, rfl⟩ := hp
    exact hw q hq
  have hle : ∀ p ∈ flat quad, (modeFree T p.1 p.2).a ≤ (modeFree T p.1 p.2).zpe ∧ (modeFree T p.1 p.2).zpe ≤ (modeFree T p.1 p.2).e := by
    intro p hp
    have h0 := hfw p hp
    unfold modeFree
    by_cases h : p.2 ≤ 0
    · simp [if_pos h]
    · simp only [if_neg h]
      have ho : 0 < Real.sqrt p.2 := Real.sqrt_pos.2 (not_le.1 h)
      generalize Real.sqrt p.2 = o at ho
      obtain ⟨h1, h2⟩ := exp_lt T o hT ho
      have hl : Real.log (1 - Real.exp (-o / T)) ≤ 0 := Real.log_nonpos (by linarith) (by linarith)
      have hd : 0 ≤ o * Real.exp (-o / T) / (1 - Real.exp (-o / T)) := div_nonneg (by positivity) (by linarith)
      constructor
      · exact mul_le_mul_of_nonneg_left (by nlinarith) h0
      · exact mul_le_mul_of_nonneg_left (by linarith) h0
  simp only [free_flat]
  refine ⟨?_, List.sum_le_sum fun p hp => (hle p hp).1, List.sum_le_sum fun p hp => (hle p hp).2⟩
  refine (list_deriv (flat quad) (fun p T => (modeFree T p.1 p.2).a) _ T fun p _ => mode_deriv T p.1 p.2 hT).congr_deriv ?_
  have : ∀ L : List (ℝ × ℝ), (L.map fun p => -((modeFree T p.1 p.2).e - (modeFree T p.1 p.2).a) / T).sum =
      -((L.map fun p => (modeFree T p.1 p.2).e).sum - (L.map fun p => (modeFree T p.1 p.2).a).sum) / T := by
    intro L
    induction L with
    | nil => simp
    | cons a L ih => simp only [List.map_cons, List.sum_cons, ih]; ring
  exact this _

example : 0 < (freeEnergy 1 [(1, [4, -1])]).zpe := by
  rw [(C98_free_energy 1 one_pos _).1]
  norm_num [level]

/-! ### Quadrature of the Brillouin zone -/

/-- All points are within the Brillouin zone, without components along truncated directions, away from the zone centre and with positive weights; and the weights
sum to one within 1/2000 if some direction is periodic. -/
theorem C98_quadrature (trunc : Fin 3 → Bool) :
    (∀ p ∈ quadratureBZ trunc, (∀ j, |p.k j| < 1 / 2) ∧ (∀ j, trunc j = true → p.k j = 0) ∧ (∃ j, p.k j ≠ 0) ∧ 0 < p.w) ∧
    ((∃ j, trunc j = false) → |((quadratureBZ trunc).map QPt.w).sum - 1| < 1 / 2000) := by
  constructor
  · intro p hp
    obtain ⟨⟨h0, h1, h2⟩, z0, z1, z2, hne, hw⟩ := loop_ok (fun j => !trunc j) 1000 1 one_pos le_rfl p hp
    refine ⟨?_, ?_, ?_, hw⟩
    · intro j; fin_cases j
      · exact h0
      · exact h1
      · exact h2
    · intro j hj; fin_cases j
      · exact z0 (by simpa using hj)
      · exact z1 (by simpa using hj)
      · exact z2 (by simpa using hj)
    · rcases hne with h | h | h
      · exact ⟨0, h⟩
      · exact ⟨1, h⟩
      · exact ⟨2, h⟩
  · rintro ⟨j, hj⟩
    rw [quad_sum]
    have hj : trunc 0 = false ∨ trunc 1 = false ∨ trunc 2 = false := by
      fin_cases j
      · exact .inl hj
      · exact .inr (.inl hj)
      · exact .inr (.inr hj)
    simp only [boxW, gam]
    rcases Bool.eq_false_or_eq_true (trunc 0) with h0 | h0 <;> rcases Bool.eq_false_or_eq_true (trunc 1) with h1 | h1 <;>
      rcases Bool.eq_false_or_eq_true (trunc 2) with h2 | h2 <;> first | (simp [h0, h1, h2] at hj; done) | (rw [abs_lt]; norm_num [h0, h1, h2])

/-- The rule in each box is Gauss-Legendre quadrature with seven points per direction: up to degree 13 in each coordinate, monomials about the centre of the box are
integrated to the precision of the tabulated values. -/
theorem C98_gauss (dim : Fin 3 → Bool) (s : ℚ) (c : Fin 3 → ℚ) (e : Fin 3 → Nat) (he : ∀ j, e j < 14) :
    ∃ m : Fin 3 → ℚ, ((box dim s (c 0) (c 1) (c 2)).map fun p => p.w * ((p.x - c 0) ^ e 0 * (p.y - c 1) ^ e 1 * (p.z - c 2) ^ e 2)).sum = m 0 * m 1 * m 2 ∧
      ∀ j, if dim j then |m j - ((s / 2) ^ (e j + 1) - (-(s / 2)) ^ (e j + 1)) / (e j + 1)| ≤ 1e-30 * |s / 2| ^ (e j + 1) else m j = 0 ^ e j := by
  refine ⟨fun j => ((loopD (dim j)).map fun i => wt (dim j) (0.5 * s) i * (absc (dim j) (0.5 * s) (c j) i - c j) ^ e j).sum,
    box_prod dim s _ _ _ (fun x => (x - c 0) ^ e 0) (fun x => (x - c 1) ^ e 1) (fun x => (x - c 2) ^ e 2), fun j => ?_⟩
  have hs : (0.5 * s : ℚ) = s / 2 := by norm_num; ring
  simp only [hs]
  cases dim j
  · simp [loopD, wt, absc_flat]
  · simp only [if_true]
    exact moment (s / 2) (c j) (e j) (he j)

/-- With all directions truncated, the quadrature has no points: all vibrational energies of a molecule are zero, whatever its frequencies. -/
theorem C98_isolated_fails : quadratureBZ (fun _ => true) = [] ∧
    ∀ (T : ℝ) (eigs : QPt → List ℝ), freeEnergy T ((quadratureBZ fun _ => true).map fun p => ((p.w : ℝ), eigs p)) = ⟨0, 0, 0⟩ := by
  have h : quadratureBZ (fun _ => true) = [] := by
    by_contra hne
    obtain ⟨p, hp⟩ := List.exists_mem_of_ne_nil _ hne
    obtain ⟨_, h1, ⟨j, h2⟩, _⟩ := (C98_quadrature fun _ => true).1 p hp
    exact h2 (h1 j rfl)
  refine ⟨h, fun T eigs => ?_⟩
  rw [h]
  simp [freeEnergy]

example : quadratureBZ (fun _ => false) ≠ [] := by
  intro h
  have := (C98_quadrature fun _ => false).2 ⟨0, rfl⟩
  rw [h] at this
  norm_num at this

end
end Jdftx.Phonon
