import Verif.Lemmas.WannierFD

/-! # C101: finite-difference formula of Wannier calculations -/
namespace Jdftx.WanFD
noncomputable section
open M3

/-- C101 (partial): when blocks of lattice directions that are not orthogonal to each other span the Cartesian directions of the same numbers, a formula that is found is exact for
gradients up to the threshold, whatever the solver of the equations returned; its offsets are those of mesh points, with no two opposite ones. Missing: other lattices, for which see
below. -/
theorem C101_formula_partial {tol : ℝ} (ht : 0 < tol) {solve : Solver} {K : M3.Mat ℝ} (ha : Aligned tol K) (hd : det K ≠ 0) {b : List (V3 ℝ)} {w : List ℝ} (h : setup tol solve K = .ok (b, w)) :
    Correct tol b w ∧ Neighbours K b w := by
  obtain ⟨s0, s1, s2, h0, h1, h2, h3⟩ := setup_steps h
  obtain ⟨i0, d0, _⟩ := inv_step ht ha hd (inv_start ht K) h0
  obtain ⟨i1, d1, m1⟩ := inv_step ht ha hd i0 h1
  obtain ⟨i2, d2, m2⟩ := inv_step ht ha hd i1 h2
  have hall : ∀ x, s2.1 x = true := by
    intro x
    fin_cases x
    · exact m2 _ (m1 _ d0)
    · exact m2 _ d1
    · exact d2
  have hb : b = s2.2.1 := congrArg Prod.fst h3
  have hw : w = s2.2.2 := congrArg Prod.snd h3
  rw [hb, hw]
  refine ⟨fun x y => ?_, i2.nb⟩
  simpa [hall x] using i2.mom x y

theorem maskOf_diag {tol : ℝ} {K : M3.Mat ℝ} (ht : 0 < tol) (hdiag : ∀ i j, i ≠ j → K i j = 0) (hbig : ∀ i, tol < K i i ^ 2) (i j : Fin 3) : maskOf tol K i j = decide (i = j) := by
  have h0 : dot (M3.column K i) (M3.column K j) = if i = j then K i i ^ 2 else 0 := by
    have h01 := hdiag 0 1 (by decide); have h02 := hdiag 0 2 (by decide); have h10 := hdiag 1 0 (by decide)
    have h12 := hdiag 1 2 (by decide); have h20 := hdiag 2 0 (by decide); have h21 := hdiag 2 1 (by decide)
    fin_cases i <;> fin_cases j <;> simp [dot, M3.column, vec, h01, h02, h10, h12, h20, h21, sq]
  unfold maskOf
  rw [h0]
  by_cases hij : i = j
  · subst hij
    have := hbig i
    simp only [if_true, decide_true, decide_eq_true_eq]
    rw [abs_of_nonneg (sq_nonneg _)]
    exact this
  · simp [hij, not_lt.2 ht.le]

/-- C101: for an orthorhombic lattice along the Cartesian directions whose mesh spacings are not too small, a formula is found, provided that the solver solves equations that can be
solved; it is exact for gradients up to the threshold. -/
theorem C101_found {tol : ℝ} (ht : 0 < tol) {solve : Solver} (hs : Exact solve) {K : M3.Mat ℝ} (hdiag : ∀ i j, i ≠ j → K i j = 0) (hbig : ∀ i, tol < K i i ^ 2) :
    ∃ b w, setup tol solve K = .ok (b, w) ∧ Correct tol b w ∧ Neighbours K b w := by
  have hm := maskOf_diag ht hdiag hbig
  have hK : ∀ i, K i i ≠ 0 := fun i h0 => by have := hbig i; rw [h0] at this; norm_num at this; linarith
  obtain ⟨r, hr⟩ := setup_single ht hs hm hK
  have ha : Aligned tol K := by
    refine ⟨fun i => by simp [hm], fun i j k h1 h2 => ?_, fun i j h => hdiag i j ?_⟩
    · simp only [hm, decide_eq_true_eq] at *
      exact h1.trans h2
    · simpa [hm] using h
  have hd : det K ≠ 0 := by
    have : det K = K 0 0 * K 1 1 * K 2 2 := by
      have h01 := hdiag 0 1 (by decide); have h02 := hdiag 0 2 (by decide); have h10 := hdiag 1 0 (by decide)
      have h12 := hdiag 1 2 (by decide); have h20 := hdiag 2 0 (by decide); have h21 := hdiag 2 1 (by decide)
      simp [det, box, dot, cross, M3.row, vec, h01, h02, h10, h12, h20, h21]
      ring
    rw [this]
    exact mul_ne_zero (mul_ne_zero (hK 0) (hK 1)) (hK 2)
  exact ⟨r.1, r.2, hr, C101_formula_partial ht ha hd hr⟩

/-- A square mesh whose first two directions are along the diagonals of the Cartesian ones. -/
def turned : M3.Mat ℝ := ofCols (vec 1 1 0) (vec (-1) 1 0) (vec 0 0 1)

theorem turned_mask {tol : ℝ} (h0 : 0 < tol) (h1 : tol < 1 / 3) (i j : Fin 3) : maskOf tol turned i j = decide (i = j) := by
  have : dot (M3.column turned i) (M3.column turned j) = if i = j then (if i = 2 then 1 else 2) else 0 := by
    fin_cases i <;> fin_cases j <;> simp [dot, M3.column, turned, ofCols, vec] <;> norm_num
  unfold maskOf
  rw [this]
  fin_cases i <;> fin_cases j <;> simp <;> linarith

/-- The code violates the property for a lattice that is turned with respect to the Cartesian directions: a formula is found, and gradients along x count twice. -/
theorem C101_turned_fails {tol : ℝ} (h0 : 0 < tol) (h1 : tol < 1 / 3) {solve : Solver} (hs : Exact solve) :
    det turned ≠ 0 ∧ ∃ b w, setup tol solve turned = .ok (b, w) ∧ |moment b w 0 0 - 2| ≤ 2 * tol ∧ ¬ Correct tol b w := by
  refine ⟨by norm_num [det, box, dot, cross, M3.row, turned, ofCols, vec], ?_⟩
  have hm := turned_mask h0 h1
  obtain ⟨r, hr⟩ := setup_single h0 hs hm (by intro i; fin_cases i <;> norm_num [turned, ofCols, vec])
  obtain ⟨r0, r1, r2, f0, f1, f2, hsum⟩ := setup_single_blocks h0 hm hr
  have e0 := f0.sound 0 0 (by simp) (by simp)
  have e1 := f1.sound 1 1 (by simp) (by simp)
  have e2 : moment r1.1 r1.2 1 1 = moment r1.1 r1.2 0 0 := by
    refine moment_congr fun v hv => ?_
    obtain ⟨n, _, hn, rfl⟩ := f1.mesh v hv
    have n0 := hn 0 (by decide)
    have n2 := hn 2 (by decide)
    simp [mulMV, turned, ofCols, vec, n0, n2]
  have e3 : moment r2.1 r2.2 0 0 = 0 := by
    refine moment_zero fun v hv => Or.inl ?_
    obtain ⟨n, _, hn, rfl⟩ := f2.mesh v hv
    have n0 := hn 0 (by decide)
    have n1 := hn 1 (by decide)
    simp [mulMV, turned, ofCols, vec, n0, n1]
  have e4 := hsum 0 0
  rw [e2] at e1
  rw [e3] at e4
  simp only [if_true] at e0 e1
  rw [abs_le] at e0 e1
  refine ⟨r.1, r.2, hr, ?_, fun hc => ?_⟩
  · rw [abs_le]
    constructor <;> linarith [e0.1, e0.2, e1.1, e1.2]
  · have := hc 0 0
    simp only [if_true] at this
    rw [abs_le] at this
    linarith [e0.1, e1.1, this.2]

/-- A cubic mesh whose first lattice direction is along y and whose second one is along x. -/
def swapped : M3.Mat ℝ := ofCols (vec 0 1 0) (vec 1 0 0) (vec 0 0 1)

/-- The code violates the property for a cubic lattice whose directions are not in the order of the Cartesian ones: no formula is found, whatever the solver does. -/
theorem C101_swapped_fails {tol : ℝ} (h0 : 0 < tol) (h1 : tol < 1) (solve : Solver) : det swapped ≠ 0 ∧ setup tol solve swapped = .error .die := by
  refine ⟨by norm_num [det, box, dot, cross, M3.row, swapped, ofCols, vec], ?_⟩
  have hm : ∀ i j, maskOf tol swapped i j = decide (i = j) := by
    intro i j
    have : dot (M3.column swapped i) (M3.column swapped j) = if i = j then 1 else 0 := by
      fin_cases i <;> fin_cases j <;> simp [dot, M3.column, swapped, ofCols, vec]
    unfold maskOf
    rw [this]
    by_cases hij : i = j
    · simp [hij, h1]
    · simp [hij, not_lt.2 h0.le]
  rcases setup_die tol solve swapped with ⟨r, hr⟩ | h
  · obtain ⟨r0, _, _, f0, _⟩ := setup_single_blocks h0 hm hr
    have e0 := f0.sound 0 0 (by simp) (by simp)
    have e1 : moment r0.1 r0.2 0 0 = 0 := by
      refine moment_zero fun v hv => Or.inl ?_
      obtain ⟨n, _, hn, rfl⟩ := f0.mesh v hv
      have n1 := hn 1 (by decide)
      have n2 := hn 2 (by decide)
      simp [mulMV, swapped, ofCols, vec, n1, n2]
    rw [e1] at e0
    simp only [if_true] at e0
    norm_num at e0
    linarith
  · exact h

/-- The code violates the property for lattices whose second direction is orthogonal to neither of the others, which are orthogonal to each other: no formula that is found is exact,
because gradients along y count twice. -/
theorem C101_chain_fails {tol : ℝ} (h0 : 0 < tol) (h1 : tol < 1 / 3) (solve : Solver) {K : M3.Mat ℝ} (hself : ∀ i, tol < |dot (M3.column K i) (M3.column K i)|)
    (h01 : tol < |dot (M3.column K 0) (M3.column K 1)|) (h12 : tol < |dot (M3.column K 1) (M3.column K 2)|) (h02 : |dot (M3.column K 0) (M3.column K 2)| ≤ tol) {b : List (V3 ℝ)} {w : List ℝ}
    (h : setup tol solve K = .ok (b, w)) : |moment b w 1 1 - 2| ≤ 2 * tol ∧ ¬ Correct tol b w := by
  have m01 : maskOf tol K 0 1 = true := by simpa [maskOf] using h01
  have m02 : maskOf tol K 0 2 = false := by simpa [maskOf] using h02
  have m00 : maskOf tol K 0 0 = true := by simpa [maskOf] using hself 0
  have m21 : maskOf tol K 2 1 = true := by rw [maskOf_comm]; simpa [maskOf] using h12
  obtain ⟨s0, s1, s2, g0, g1, g2, h3⟩ := setup_steps h
  obtain ⟨r0, f0, rfl⟩ := dirStep_new rfl g0
  have := dirStep_old (by simp [m01]) g1
  subst this
  obtain ⟨r2, f2, rfl⟩ := dirStep_new (by simp [m02]) g2
  have q0 := formula_ok h0 f0
  have q2 := formula_ok h0 f2
  have hb : b = r0.1 ++ r2.1 := congrArg Prod.fst h3
  have hw : w = r0.2 ++ r2.2 := congrArg Prod.snd h3
  have e := moment_append (b' := r2.1) (w' := r2.2) q0.length 1 1
  rw [← hb, ← hw] at e
  have e0 := q0.sound 1 1 m01 m01
  have e2 := q2.sound 1 1 m21 m21
  simp only [if_true] at e0 e2
  rw [abs_le] at e0 e2
  constructor
  · rw [abs_le]
    constructor <;> linarith [e0.1, e0.2, e2.1, e2.2]
  · intro hc
    have := hc 1 1
    simp only [if_true] at this
    rw [abs_le] at this
    linarith [e0.1, e2.1, this.2]

/-- The code violates the property for fine meshes: when the spacing of mesh points along a lattice direction is at most the square root of the threshold, and that direction is orthogonal
to the others, the program ends. -/
theorem C101_fine_fails {tol : ℝ} (solve : Solver) {K : M3.Mat ℝ} {i : Fin 3} (h : ∀ j, |dot (M3.column K i) (M3.column K j)| ≤ tol) : setup tol solve K = .error .die := by
  have hm : ∀ j, maskOf tol K i j = false := fun j => by simpa [maskOf] using h j
  have hm' : ∀ j, maskOf tol K j i = false := fun j => by rw [maskOf_comm]; exact hm j
  have hi : ∀ {st : (Fin 3 → Bool) × List (V3 ℝ) × List ℝ}, st.1 i = false → dirStep tol solve K st i = .error .die := by
    intro st hst
    unfold dirStep
    rw [if_neg (by simp [hst]), formula_empty hm]
    rfl
  have hj : ∀ {st st' : (Fin 3 → Bool) × List (V3 ℝ) × List ℝ} {j : Fin 3}, st.1 i = false → dirStep tol solve K st j = .ok st' → st'.1 i = false := by
    intro st st' j hst hs
    by_cases hd : st.1 j = true
    · rw [dirStep_old hd hs]
      exact hst
    · obtain ⟨r, _, rfl⟩ := dirStep_new (by simpa using hd) hs
      simp [hst, hm' j]
  rcases setup_die tol solve K with ⟨r, hr⟩ | h
  · exfalso
    obtain ⟨s0, s1, s2, g0, g1, g2, _⟩ := setup_steps hr
    have a0 := hj rfl g0
    have a1 := hj a0 g1
    fin_cases i
    · exact absurd ((hi (st := (fun _ => false, [], [])) rfl).symm.trans g0) (by simp)
    · exact absurd ((hi a0).symm.trans g1) (by simp)
    · exact absurd ((hi a1).symm.trans g2) (by simp)
  · exact h

/-! ## Instances of the hypotheses -/

open Classical in
/-- A solver that solves equations that can be solved. -/
def someSolver : Solver := fun L m n r =>
  if h : ∃ w : ℕ → ℝ, ∀ e < m, ∑ s ∈ Finset.range n, L e s * w s = r e then fun s => (h.choose s : ℂ) else fun _ => 0

theorem someSolver_exact : Exact someSolver := by
  intro L m n r h e he
  unfold someSolver
  rw [dif_pos h]
  have := h.choose_spec e he
  rw [← this]
  push_cast
  rfl

/-- A tetragonal mesh. -/
example : ∃ b w, setup (1 / 10000) someSolver (fun i j => if i = j then (if i = 2 then 1 / 4 else 1 / 2) else 0) = .ok (b, w) ∧ Correct (1 / 10000) b w := by
  obtain ⟨b, w, h1, h2, _⟩ := C101_found (tol := 1 / 10000) (by norm_num) someSolver_exact (K := fun i j => if i = j then (if i = 2 then 1 / 4 else 1 / 2) else 0)
    (fun i j h => by simp [h]) (fun i => by rw [if_pos rfl]; split_ifs <;> norm_num)
  exact ⟨b, w, h1, h2⟩

/-- A hexagonal mesh, with two directions in one block, meets the hypotheses of the partial theorem. -/
example : Aligned (1 / 10000) (ofCols (vec 2 0 0) (vec (-1) (7 / 4) 0) (vec 0 0 1)) ∧ det (ofCols (vec 2 0 0) (vec (-1) (7 / 4) 0) (vec 0 0 1) : M3.Mat ℝ) ≠ 0 := by
  have hd : ∀ i j : Fin 3, maskOf (1 / 10000) (ofCols (vec 2 0 0) (vec (-1) (7 / 4) 0) (vec 0 0 1)) i j = (decide (i = j) || (decide (i ≠ 2) && decide (j ≠ 2))) := by
    intro i j
    fin_cases i <;> fin_cases j <;> simp [maskOf, dot, M3.column, ofCols, vec] <;> norm_num
  refine ⟨⟨fun i => by rw [hd]; simp, fun i j k => ?_, fun i j => ?_⟩, by norm_num [det, box, dot, cross, M3.row, ofCols, vec]⟩
  · simp only [hd]
    revert i j k
    decide
  · rw [hd]
    fin_cases i <;> fin_cases j <;> simp [ofCols, vec]

/-- Lattices of the kind in which the second direction is orthogonal to neither of the others exist. -/
example : (∀ i, (1 / 10000 : ℝ) < |dot (M3.column (ofCols (vec 1 0 0) (vec 1 1 1) (vec 0 0 1)) i) (M3.column (ofCols (vec 1 0 0) (vec 1 1 1) (vec 0 0 1)) i)|) ∧
    (1 / 10000 : ℝ) < |dot (M3.column (ofCols (vec 1 0 0) (vec 1 1 1) (vec 0 0 1)) 0) (M3.column (ofCols (vec 1 0 0) (vec 1 1 1) (vec 0 0 1)) 1)| ∧
    (1 / 10000 : ℝ) < |dot (M3.column (ofCols (vec 1 0 0) (vec 1 1 1) (vec 0 0 1)) 1) (M3.column (ofCols (vec 1 0 0) (vec 1 1 1) (vec 0 0 1)) 2)| ∧
    |dot (M3.column (ofCols (vec 1 0 0) (vec 1 1 1) (vec 0 0 1)) 0) (M3.column (ofCols (vec 1 0 0) (vec 1 1 1) (vec 0 0 1)) 2)| ≤ (1 / 10000 : ℝ) := by
  refine ⟨fun i => by fin_cases i <;> simp [dot, M3.column, ofCols, vec] <;> norm_num, ?_, ?_, ?_⟩ <;> simp [dot, M3.column, ofCols, vec] <;> norm_num

/-- A cubic mesh of spacing 0.01. -/
example : ∀ j, |dot (M3.column (fun i j => if i = j then 1 / 100 else 0 : M3.Mat ℝ) 0) (M3.column (fun i j => if i = j then 1 / 100 else 0) j)| ≤ (1 / 10000 : ℝ) := by
  intro j
  fin_cases j <;> simp [dot, M3.column, vec]
  norm_num

end
end Jdftx.WanFD
