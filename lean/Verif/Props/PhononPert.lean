import Verif.Lemmas.PhononPertBasis
import Mathlib.Data.ZMod.Basic
import Mathlib.Tactic.NormNum
import Mathlib.Tactic.IntervalCases

/-!
# C99: derivatives of forces from symmetry-reduced displacements
-/
namespace Jdftx.PhonPert
noncomputable section
open M3
open Phonon (prodSup getCell getUnit uOf)

/-- The directions of displacement: for any non-degenerate lattice and any list of symmetries the program finds three orthogonal unit vectors, the first of them a direction
of a short lattice or reciprocal lattice vector that is invariant under the largest number of symmetries. -/
theorem C99_directions (R : Mat ℝ) (o : Ops) (tol : ℝ) (hR : M3.det R ≠ 0) (ht : 0 < tol) (ht2 : tol ≤ 1 / 2) :
    ∃ B, dirBasis tol R o = .ok B ∧ Orthonormal B ∧
      ∀ c ∈ combos, nStabilizer tol (normalized (mulMV R (CellMap.toV c))) o ≤ nStabilizer tol (B 0) o ∧
        nStabilizer tol (normalized (mulVM (CellMap.toV c) (Basis.inv R))) o ≤ nStabilizer tol (B 0) o := by
  obtain ⟨B, h1, h2, _, h3⟩ := dirBasis_ok o hR ht ht2
  exact ⟨B, h1, h2, fun c hc => ⟨h3 _ ⟨c, hc, Or.inl rfl⟩, h3 _ ⟨c, hc, Or.inr rfl⟩⟩⟩

/-- The result: if the operations are the space group of the supercell up to translations by unit cells (in whatever order and with whatever choice of translations), then the
consistency check of the program passes and the accumulated derivative for every mode is the central difference of the response to that displacement, although only the irreducible
displacements are computed, and only one sign of those that a symmetry reverses. Missing: that the operations are that group; it fails for symmetries specified by the user
(`C99_manual_fails`), and the automatic search is the subject of C90. -/
theorem C99_exact_partial (c : Cell) (o : Ops) (B : Fin 3 → V3 ℝ) (useVPT : Bool) (f : Nat → Nat → V3 ℝ → Grad) {G : Type} [Group G] [Fintype G] (s : SpaceGroup c o G)
    (hS : c.S.Pos) (hB : Orthonormal B) (hs : Separated c o B) (hf : Equivariant s f) (h0 : NoNetForce c f) (hl : Linear c f) (hv : useVPT = true → Odd c f) :
    ∃ g, run c o B useVPT f = .ok g ∧
      ∀ sp < c.nSp, ∀ a < c.nAt sp, ∀ j, ∀ sp2 < c.nSp, ∀ a2 < nTot c sp2, g sp a j sp2 a2 = central f sp a (unit j) sp2 a2 := by
  have hfind := find_ok (useVPT := useVPT) fun sp hsp => findSp_ok s hS hB hs.pos useVPT hsp
  refine ⟨_, by unfold run; rw [hfind]; simp only [Res.bind_ok]; rfl, ?_⟩
  intro sp hsp a ha j sp2 hsp2 a2 ha2
  rw [foldl_terms s hS hf h0 _ _ _ sp a j hsp2 ha2, all_sum s hS hB hl hv hs hsp ha j hsp2 ha2, zero_add]
  intro p hp
  obtain ⟨sp', hsp', hp⟩ := List.mem_flatMap.1 hp
  obtain ⟨h1, h2⟩ := perts_mem s hs (List.mem_range.1 hsp') hp
  rw [h1]
  exact ⟨List.mem_range.1 hsp', h2⟩

/-- The same in terms of the gradients that are computed for the displaced supercells, with step `dr`: the gradient of the undisplaced supercell drops out. -/
theorem C99_finite_difference_partial (c : Cell) (o : Ops) (B : Fin 3 → V3 ℝ) (grad : Nat → Nat → V3 ℝ → Grad) (grad0 : Grad) (dr : ℝ) {G : Type} [Group G] [Fintype G]
    (s : SpaceGroup c o G) (hS : c.S.Pos) (hB : Orthonormal B) (hs : Separated c o B) (hf : Equivariant s grad) (h0 : NoNetForce c grad)
    (hz : ∀ sp < c.nSp, ∀ a < nTot c sp, ∀ sp2 < c.nSp, ∀ a2 < nTot c sp2, grad sp a 0 sp2 a2 = grad0 sp2 a2)
    (hl : Linear c fun sp a d => grad sp a (dr • d)) :
    ∃ g, run c o B false (fdiff dr grad grad0) = .ok g ∧
      ∀ sp < c.nSp, ∀ a < c.nAt sp, ∀ j, ∀ sp2 < c.nSp, ∀ a2 < nTot c sp2,
        g sp a j sp2 a2 = (1 / (2 * dr)) • (grad sp a (dr • unit j) sp2 a2 - grad sp a (-(dr • unit j)) sp2 a2) := by
  have hc : ∀ sp a d sp2 a2, central (fdiff dr grad grad0) sp a d sp2 a2 = (1 / dr) • central (fun sp a d => grad sp a (dr • d)) sp a d sp2 a2 := by
    intro sp a d sp2 a2
    simp only [central, fdiff]
    module
  have hE : Equivariant s (fdiff dr grad grad0) := by
    intro g sp hsp a ha d sp2 hsp2 a2 ha2
    simp only [fdiff, mulMV_smul', mulMV_sub']
    rw [← mulMV_smul', hf g sp hsp a ha _ sp2 hsp2 a2 ha2, ← hz sp hsp a ha sp2 hsp2 a2 ha2, ← hf g sp hsp a ha 0 sp2 hsp2 a2 ha2]
    rw [show mulMV (s.rho g) 0 = 0 by funext i; simp [mulMV], hz sp hsp _ (s.act_lt g sp hsp a ha) sp2 hsp2 _ (s.act_lt g sp2 hsp2 a2 ha2)]
  have hN : NoNetForce c (fdiff dr grad grad0) := by
    intro sp hsp a ha d
    simp only [fdiff]
    have e1 := h0 sp hsp a ha (dr • d)
    have e2 := h0 sp hsp a ha 0
    have e3 : ∑ sp2 ∈ Finset.range c.nSp, ∑ a2 ∈ Finset.range (nTot c sp2), grad0 sp2 a2 = 0 := by
      rw [← e2]
      refine Finset.sum_congr rfl fun sp2 hsp2 => Finset.sum_congr rfl fun a2 ha2 => ?_
      rw [hz sp hsp a ha sp2 (Finset.mem_range.1 hsp2) a2 (Finset.mem_range.1 ha2)]
    simp only [← Finset.smul_sum, Finset.sum_sub_distrib, e1, e3, sub_zero, smul_zero]
  have hL : Linear c (fdiff dr grad grad0) := by
    intro sp hsp a ha d sp2 hsp2 a2 ha2
    simp only [hc]
    rw [hl sp hsp a ha d sp2 hsp2 a2 ha2, Finset.smul_sum]
    refine Finset.sum_congr rfl fun k _ => ?_
    rw [smul_comm]
  obtain ⟨g, h1, h2⟩ := C99_exact_partial c o B false (fdiff dr grad grad0) s hS hB hs hE hN hL (by simp)
  refine ⟨g, h1, fun sp hsp a ha j sp2 hsp2 a2 ha2 => ?_⟩
  rw [h2 sp hsp a ha j sp2 hsp2 a2 ha2, hc]
  simp only [central, smul_neg, smul_smul]
  congr 1
  ring_nf

/-- The number of displacements is at most two per mode, and their weights add up to the number of modes divided by the number of symmetries. -/
theorem C99_number (c : Cell) (o : Ops) (B : Fin 3 → V3 ℝ) (useVPT : Bool) {G : Type} [Group G] [Fintype G] (s : SpaceGroup c o G)
    (hS : c.S.Pos) (hB : Orthonormal B) (ht : 0 < c.tol) :
    ∃ ps, find c o B useVPT = .ok ps ∧ ps.length ≤ 2 * ∑ sp ∈ Finset.range c.nSp, 3 * c.nAt sp ∧
      (ps.map Pert.weight).sum = (∑ sp ∈ Finset.range c.nSp, 3 * (c.nAt sp : ℝ)) / o.nSym := by
  refine ⟨_, find_ok fun sp hsp => findSp_ok s hS hB ht useVPT hsp, ?_, ?_⟩
  · rw [List.length_flatMap, Phonon.list_range_sum, Finset.mul_sum]
    refine Finset.sum_le_sum fun sp _ => ?_
    have := perts_length (c := c) (o := o) (B := B) useVPT sp
    omega
  · rw [flatMap_sum', Phonon.list_range_sum, Finset.sum_div]
    refine Finset.sum_congr rfl fun sp _ => ?_
    rw [show ((perts c o B useVPT sp).map Pert.weight).sum = _ from perts_weight useVPT sp]
    push_cast; ring

/-! ## Manual symmetries -/

/-- Cartesian rotation of an operation in lattice coordinates (Phonon_init.cpp:199-201). -/
def cart (R : Mat ℝ) (rot : Mat Int) : Mat ℝ := mulMM (mulMM R (castMat rot)) (Basis.inv R)

/-- Rhombic lattice: vectors (2,0,0), (1,1,0), (0,0,1). -/
def exR : Mat ℝ := ofCols (vec 2 0 0) (vec 1 1 0) (vec 0 0 1)

/-- Its 2x1x1 supercell. -/
def exRsup : Mat ℝ := ofCols (vec 4 0 0) (vec 1 1 0) (vec 0 0 1)

/-- Reflection of the second Cartesian axis, which is a symmetry of the lattice. -/
def exMirror : Mat Int := ofCols (vec 1 0 0) (vec 1 (-1) 0) (vec 0 0 1)

/-- Reflection of the lattice that preserves the second vector. -/
def exMirror2 : Mat Int := ofCols (vec (-1) 2 0) (vec 0 1 0) (vec 0 0 1)

/-- What the program makes of them for the supercell. -/
def exMirrorSup : Mat Int := ofCols (vec 1 0 0) (vec 2 (-1) 0) (vec 0 0 1)
@[inherit_doc exMirrorSup] def exMirrorSup2 : Mat Int := ofCols (vec (-1) 1 0) (vec 0 1 0) (vec 0 0 1)

/-- The supercell, with one atom in the unit cell. -/
def exManual : Cell := { S := ⟨2, 1, 1⟩, nSp := 1, nAt := fun _ => 1, tol := 1e-4 }

/-- The operations that the program uses if the identity and the first reflection are specified. -/
def exManualOps : Ops := { nSym := 2, rot := fun i => if i = 0 then M3.diag 1 1 1 else cart exRsup exMirrorSup, atomMap := fun _ a _ => a }

theorem diag_cols (a b c : ℝ) : M3.diag a b c = ofCols (vec a 0 0) (vec 0 b 0) (vec 0 0 c) := by
  funext i j
  fin_cases i <;> fin_cases j <;> rfl

theorem inv_diag : Basis.inv (M3.diag (2 : ℝ) 1 1) = M3.diag (1 / 2) 1 1 := by
  funext i j
  fin_cases i <;> fin_cases j <;> norm_num [diag_cols, Basis.inv, smul, M3.det, M3.box, adjugate, ofCols, dot, M3.cross, M3.row, vec]

theorem inv_exRsup : Basis.inv exRsup = ofCols (vec (1 / 4) 0 0) (vec (-1 / 4) 1 0) (vec 0 0 1) := by
  funext i j
  fin_cases i <;> fin_cases j <;> norm_num [exRsup, Basis.inv, smul, M3.det, M3.box, adjugate, ofCols, dot, M3.cross, M3.row, vec]

theorem inv_exR : Basis.inv exR = ofCols (vec (1 / 2) 0 0) (vec (-1 / 2) 1 0) (vec 0 0 1) := by
  funext i j
  fin_cases i <;> fin_cases j <;> norm_num [exR, Basis.inv, smul, M3.det, M3.box, adjugate, ofCols, dot, M3.cross, M3.row, vec]

theorem manualSup_one {tol : ℝ} (ht : 0 ≤ tol) (m m' : Mat Int) (a a' : V3 ℝ)
    (h : ∀ i j, mulMM (mulMM (M3.diag (2 : ℝ) 1 1) (castMat m)) (M3.diag (1 / 2) 1 1) i j = (m' i j : ℝ)) (ha : mulVM a (M3.diag (1 / 2) 1 1) = a') :
    manualSup tol ⟨2, 1, 1⟩ [⟨m, a⟩] = [⟨m', a'⟩] := by
  unfold manualSup
  have hD : M3.diag (((⟨2, 1, 1⟩ : Box.Size).s0 : Nat) : ℝ) ((⟨2, 1, 1⟩ : Box.Size).s1 : ℝ) ((⟨2, 1, 1⟩ : Box.Size).s2 : ℝ) = M3.diag (2 : ℝ) 1 1 := by norm_num
  simp only [hD, inv_diag, List.filterMap_cons, List.filterMap_nil]
  have hr : ∀ i j, round (mulMM (mulMM (M3.diag (2 : ℝ) 1 1) (castMat m)) (M3.diag (1 / 2) 1 1) i j) = m' i j := by
    intro i j; rw [h i j, round_intCast]
  rw [if_pos]
  · simp only [hr, ha]
  · intro i j
    rw [hr, h i j, sub_self, abs_zero]; exact ht

/-- Symmetries that are specified by the user are converted to the supercell with the matrix of the supercell and its inverse exchanged. For a 2x1x1 supercell of a rhombic
lattice with one atom, a reflection that does not map the supercell to itself is kept, with a matrix that is not an isometry though it leaves both atoms in place, and then the
consistency check stops the program; and a reflection that does map the supercell to itself is given a matrix that moves an atom to where there is none. -/
theorem C99_manual_fails :
    -- both reflections are isometries that map the lattice to itself
    (∀ v w, dot (mulMV exR (mulMV (castMat exMirror) v)) (mulMV exR (mulMV (castMat exMirror) w)) = dot (mulMV exR v) (mulMV exR w)) ∧
    (∀ v w, dot (mulMV exR (mulMV (castMat exMirror2) v)) (mulMV exR (mulMV (castMat exMirror2) w)) = dot (mulMV exR v) (mulMV exR w)) ∧
    -- the first: not a symmetry of the supercell, but accepted
    ¬MapsSuper ⟨2, 1, 1⟩ exMirror ∧ manualSup 1e-4 ⟨2, 1, 1⟩ [⟨exMirror, 0⟩] = [⟨exMirrorSup, 0⟩] ∧
    (∀ x : ℝ, mulMV (castMat exMirrorSup) (vec x 0 0) = vec x 0 0) ∧
    (∀ B, Orthonormal B → find exManual exManualOps B false = .error .die) ∧
    -- the second: a symmetry of the supercell, but given the wrong matrix
    MapsSuper ⟨2, 1, 1⟩ exMirror2 ∧ manualSup 1e-4 ⟨2, 1, 1⟩ [⟨exMirror2, 0⟩] = [⟨exMirrorSup2, 0⟩] ∧
    mulMV (castMat exMirrorSup2) (vec (1 / 2 : ℝ) 0 0) = vec (-1 / 2) (1 / 2) 0 := by
  have hz : mulVM (0 : V3 ℝ) (M3.diag (1 / 2) 1 1) = 0 := by funext i; simp [mulVM]
  refine ⟨?_, ?_, ?_, ?_, ?_, ?_, ?_, ?_, ?_⟩
  · intro v w
    simp [dot, mulMV, exR, exMirror, castMat, ofCols, vec]
    ring
  · intro v w
    simp [dot, mulMV, exR, exMirror2, castMat, ofCols, vec]
    ring
  · intro h
    obtain ⟨w, hw⟩ := h (vec 0 1 0)
    have := hw 0
    simp [mulMV, exMirror, ofCols, vec] at this
    omega
  · refine manualSup_one (by norm_num) _ _ _ _ (fun i j => ?_) hz
    fin_cases i <;> fin_cases j <;> norm_num [mulMM, diag_cols, castMat, exMirror, exMirrorSup, ofCols, vec]
  · intro x
    funext i
    fin_cases i <;> simp [mulMV, castMat, exMirrorSup, ofCols, vec]
  · intro B hB
    have hc := hB.complete
    have h00 := hc 0 0; have h11 := hc 1 1; have h01 := hc 0 1
    simp only [Fin.sum_univ_three, Fin.reduceEq, if_true, if_false] at h00 h11 h01
    have hcart : cart exRsup exMirrorSup = ofCols (vec 1 0 0) (vec 6 (-1) 0) (vec 0 0 1) := by
      unfold cart
      rw [inv_exRsup]
      funext i j
      fin_cases i <;> fin_cases j <;> norm_num [mulMM, castMat, exRsup, exMirrorSup, ofCols, vec]
    have hsp : findSp exManual exManualOps B false 0 = .error .die := by
      unfold findSp
      dsimp only
      rw [if_neg]
      set A := fun k l => ((((pertSp exManual exManualOps B 0).map fun p => (⟨p, projOf exManual exManualOps p⟩ : Entry)).map fun e => e.proj k l).sum - if k = l then 1 else 0) with hA
      have hA00 : A 0 0 = 18 := by
        rw [hA]
        simp only [List.map_map, if_true]
        unfold pertSp
        rw [List.map_map, Phonon.list_range_sum]
        simp only [exManual, one_mul, Finset.sum_range_succ, Finset.sum_range_zero, Function.comp_apply, projOf, exManualOps, nHat, hcart]
        norm_num [mulMV, diag_cols, ofCols, vec]
        linear_combination h00 + 18 * h11 + 6 * h01
      have hle : |A 0 0| ≤ nrm2 (exManual.nAt 0 * 3) A := by
        unfold nrm2
        rw [← Real.sqrt_sq_eq_abs]
        apply Real.sqrt_le_sqrt
        have e1 : A 0 0 ^ 2 ≤ ∑ l ∈ Finset.range (exManual.nAt 0 * 3), A 0 l ^ 2 :=
          Finset.single_le_sum (f := fun l => A 0 l ^ 2) (fun l _ => sq_nonneg _) (Finset.mem_range.2 (by simp [exManual]))
        refine e1.trans ?_
        exact Finset.single_le_sum (f := fun k => ∑ l ∈ Finset.range (exManual.nAt 0 * 3), A k l ^ 2) (fun k _ => Finset.sum_nonneg fun l _ => sq_nonneg _)
          (Finset.mem_range.2 (by simp [exManual]))
      rw [hA00] at hle
      norm_num at hle
      show ¬nrm2 (exManual.nAt 0 * 3) A < exManual.tol
      have : exManual.tol = 1e-4 := rfl
      rw [this]
      intro h
      norm_num at h
      linarith
    unfold find
    show List.foldlM _ _ [0] = _
    rw [List.foldlM_cons, hsp]
    rfl
  · intro v
    refine ⟨vec (-v 0) (4 * v 0 + v 1) (v 2), fun i => ?_⟩
    fin_cases i <;> simp [mulMV, exMirror2, ofCols, vec]
    ring
  · refine manualSup_one (by norm_num) _ _ _ _ (fun i j => ?_) hz
    fin_cases i <;> fin_cases j <;> norm_num [mulMM, diag_cols, castMat, exMirror2, exMirrorSup2, ofCols, vec]
  · funext i
    fin_cases i <;> norm_num [mulMV, castMat, exMirrorSup2, ofCols, vec]

/-! ## An example: two atoms exchanged by inversion, 2x1x1 supercell -/

def exC : Cell := { S := ⟨2, 1, 1⟩, nSp := 1, nAt := fun _ => 2, tol := 1e-4 }

theorem exC_pos : exC.S.Pos := ⟨by decide, by decide, by decide⟩

abbrev ExG := Multiplicative (ZMod 2) × Multiplicative (ZMod 2)

/-- Image of an atom `a + 2*unit`: the first component of the group element is a translation, the second exchanges the atoms. -/
def exAct (g : ExG) (a : Nat) : Nat := (a % 2 + (Multiplicative.toAdd g.2).val) % 2 + 2 * ((a / 2 + (Multiplicative.toAdd g.1).val) % 2)

def exRho (g : ExG) : Mat ℝ := if g.2 = 1 then ofCols (vec 1 0 0) (vec 0 1 0) (vec 0 0 1) else ofCols (vec (-1) 0 0) (vec 0 (-1) 0) (vec 0 0 (-1))

theorem exRho_apply (g : ExG) (v : V3 ℝ) : mulMV (exRho g) v = if g.2 = 1 then v else -v := by
  unfold exRho
  split_ifs <;> (funext i; fin_cases i <;> simp [mulMV, ofCols, vec])

def exOp (i : Nat) : ExG := if i = 0 then 1 else (1, Multiplicative.ofAdd 1)

def exO : Ops := { nSym := 2, rot := fun i => exRho (exOp i), atomMap := fun _ a i => exAct (exOp i) a }

theorem exN (sp : Nat) : nTot exC sp = 4 := rfl

theorem ex_cases (x : Multiplicative (ZMod 2)) : x = 1 ∨ x = Multiplicative.ofAdd 1 := by
  revert x; decide

def exGroup : SpaceGroup exC exO ExG where
  act g _ a := exAct g a
  rho := exRho
  tr k := (Multiplicative.ofAdd (k.x : ZMod 2), 1)
  op := exOp
  act_lt := by
    intro g sp _ a ha
    rw [exN] at *
    have : ∀ g : ExG, ∀ a < 4, exAct g a < 4 := by decide
    exact this g a ha
  act_one := by
    intro sp _ a ha
    rw [exN] at ha
    have : ∀ a < 4, exAct 1 a = a := by decide
    exact this a ha
  act_mul := by
    intro g h sp _ a ha
    rw [exN] at ha
    have : ∀ g h : ExG, ∀ a < 4, exAct (g * h) a = exAct g (exAct h a) := by decide
    exact this g h a ha
  rho_mul := by
    intro g h v
    simp only [exRho_apply]
    rcases ex_cases g.2 with h1 | h1 <;> rcases ex_cases h.2 with h2 | h2 <;> rw [Prod.snd_mul, h1, h2]
    · simp
    · simp
    · simp
    · rw [if_pos (by decide), if_neg (by decide)]; simp
  rho_orth := by
    intro g v w
    rw [exRho_apply, exRho_apply]
    split_ifs
    · rfl
    · simp [dot]
  tr_act := by
    intro k sp _ a ha
    rw [exN] at ha
    rw [move_eq (c := exC) exC_pos]
    show exAct _ a = a % 2 + 2 * uOf ⟨2, 1, 1⟩ _
    have h1 : (((Multiplicative.toAdd (Multiplicative.ofAdd (k.x : ZMod 2))).val : Nat) : Int) = k.x % 2 := ZMod.val_intCast k.x
    unfold exAct
    rw [Phonon.getCell_nat]
    simp only [uOf, exC]
    simp only [toAdd_one, ZMod.val_zero, add_zero]
    generalize (Multiplicative.toAdd (Multiplicative.ofAdd (k.x : ZMod 2))).val = m at *
    simp only [Nat.div_one, mul_one]
    omega
  tr_rho := by
    intro k v
    rw [exRho_apply, if_pos rfl]
  op_rot := fun _ _ => rfl
  op_map := fun _ _ _ _ _ _ => rfl
  all := by
    intro g
    obtain ⟨x, y⟩ := g
    refine ⟨⟨(Multiplicative.toAdd x).val, 0, 0⟩, if y = 1 then 0 else 1, by show _ < 2; split_ifs <;> omega, ?_⟩
    have : ∀ x y : Multiplicative (ZMod 2), ((x, y) : ExG) = (Multiplicative.ofAdd (((Multiplicative.toAdd x).val : Int) : ZMod 2), 1) * exOp (if y = 1 then 0 else 1) := by decide
    exact this x y
  once := by
    intro k k' i hi j hj h
    have h2 := congrArg Prod.snd h
    change i < 2 at hi; change j < 2 at hj
    simp only [Prod.snd_mul, one_mul] at h2
    have : ∀ i < 2, ∀ j < 2, (exOp i).2 = (exOp j).2 → i = j := by decide
    exact this i hi j hj h2

/-- The Cartesian directions. -/
def exB : Fin 3 → V3 ℝ := unit

theorem exB_orth : Orthonormal exB := by
  intro i j
  fin_cases i <;> fin_cases j <;> simp [exB, unit, dot]

theorem unit_ofNat (i k : Nat) : unit (Fin.ofNat 3 i) (Fin.ofNat 3 k) = if k % 3 = i % 3 then 1 else 0 := by
  unfold unit
  simp only [Fin.ext_iff, Fin.val_ofNat]

theorem exProj (i : Nat) (hi : i < 6) (k l : Nat) (hk : k < 6) (hl : l < 6) :
    projOf exC exO { sp := 0, at' := i / 3, dir := exB (Fin.ofNat 3 i), weight := 1 / 2 } k l = if k / 3 = l / 3 ∧ k % 3 = i % 3 ∧ l % 3 = i % 3 then 1 / 2 else 0 := by
  unfold projOf
  rw [show exO.nSym = 2 from rfl]
  simp only [Finset.sum_range_succ, Finset.sum_range_zero, zero_add]
  rw [show exO.rot 0 = exRho (exOp 0) from rfl, show exO.rot 1 = exRho (exOp 1) from rfl, exRho_apply, exRho_apply, if_pos (by decide), if_neg (by decide)]
  have h0 : exO.atomMap 0 (i / 3) 0 % exC.nAt 0 = i / 3 := by
    have : ∀ i < 6, exO.atomMap 0 (i / 3) 0 % exC.nAt 0 = i / 3 := by decide
    exact this i hi
  have h1 : exO.atomMap 0 (i / 3) 1 % exC.nAt 0 = 1 - i / 3 := by
    have : ∀ i < 6, exO.atomMap 0 (i / 3) 1 % exC.nAt 0 = 1 - i / 3 := by decide
    exact this i hi
  rw [h0, h1]
  simp only [nHat, exB, Pi.neg_apply, unit_ofNat]
  interval_cases i <;> interval_cases k <;> interval_cases l <;> norm_num

theorem nrm2_entry {n : Nat} (A : Nat → Nat → ℝ) {k l : Nat} (hk : k < n) (hl : l < n) : |A k l| ≤ nrm2 n A := by
  unfold nrm2
  rw [← Real.sqrt_sq_eq_abs]
  apply Real.sqrt_le_sqrt
  have e1 : A k l ^ 2 ≤ ∑ l ∈ Finset.range n, A k l ^ 2 :=
    Finset.single_le_sum (f := fun l => A k l ^ 2) (fun l _ => sq_nonneg _) (Finset.mem_range.2 hl)
  exact e1.trans (Finset.single_le_sum (f := fun k => ∑ l ∈ Finset.range n, A k l ^ 2) (fun k _ => Finset.sum_nonneg fun l _ => sq_nonneg _) (Finset.mem_range.2 hk))

theorem exSep : Separated exC exO exB where
  pos := by norm_num [exC]
  proj := by
    intro sp hsp p hp q hq h k hk l hl
    obtain rfl : sp = 0 := by change sp < 1 at hsp; omega
    obtain ⟨i, hi, rfl⟩ := List.mem_map.1 hp
    obtain ⟨i', hi', rfl⟩ := List.mem_map.1 hq
    rw [List.mem_range] at hi hi'
    change i < 6 at hi; change i' < 6 at hi'; change k < 6 at hk; change l < 6 at hl
    rw [show (1 / (exO.nSym : ℝ)) = 1 / 2 by norm_num [exO]] at *
    rw [exProj i hi k l hk hl, exProj i' hi' k l hk hl]
    by_cases he : i % 3 = i' % 3
    · rw [he]
    · exfalso
      have h1 := nrm2_entry (n := exC.nAt 0 * 3) (fun k l => projOf exC exO { sp := 0, at' := i / 3, dir := exB (Fin.ofNat 3 i), weight := 1 / 2 } k l -
        projOf exC exO { sp := 0, at' := i' / 3, dir := exB (Fin.ofNat 3 i'), weight := 1 / 2 } k l) (k := i % 3) (l := i % 3) (show i % 3 < 6 by omega) (show i % 3 < 6 by omega)
      rw [exProj i hi _ _ (by omega) (by omega), exProj i' hi' _ _ (by omega) (by omega), if_pos ⟨rfl, by omega, by omega⟩, if_neg (by omega)] at h1
      have h2 := lt_of_le_of_lt h1 h
      rw [show exC.tol = 1e-4 from rfl] at h2
      norm_num at h2
  even := by
    intro i hi d h
    change i < 2 at hi
    rw [show exO.rot i = exRho (exOp i) from rfl, exRho_apply] at *
    interval_cases i
    · exfalso
      rw [if_pos (by decide)] at h
      have h1 : Basis.length (exB d + exB d) = 2 := by
        unfold Basis.length
        rw [Real.sqrt_eq_iff_mul_self_eq (by nlinarith [mul_self_nonneg ((exB d + exB d) 0), mul_self_nonneg ((exB d + exB d) 1), mul_self_nonneg ((exB d + exB d) 2)]) (by norm_num)]
        have := exB_orth d d
        simp only [dot, if_true] at this
        simp only [Pi.add_apply]
        linear_combination 4 * this
      rw [h1, show exC.tol = 1e-4 from rfl] at h
      norm_num at h
    · rw [if_neg (by decide)]

/-- An anharmonic response: there is a contribution quadratic in the displacement, along the bond between the atoms. -/
def exF (_sp a : Nat) (d : V3 ℝ) : Grad := fun _ a2 => (if a2 = a then (3 : ℝ) else -1) • (d + CellMap.lenSq d • vec (if a % 2 = 0 then 1 else -1) 0 0)

theorem exF_equivariant : Equivariant exGroup exF := by
  intro g sp _ a ha d sp2 _ a2 ha2
  rw [exN] at ha ha2
  show exF sp (exAct g a) (mulMV (exRho g) d) sp2 (exAct g a2) = mulMV (exRho g) (exF sp a d sp2 a2)
  have h1 : exAct g a2 = exAct g a ↔ a2 = a := by
    have : ∀ g : ExG, ∀ a < 4, ∀ a2 < 4, exAct g a2 = exAct g a ↔ a2 = a := by decide
    exact this g a ha a2 ha2
  have h2 : (exAct g a % 2 = 0) ↔ ((a % 2 = 0) ↔ g.2 = 1) := by
    have : ∀ g : ExG, ∀ a < 4, (exAct g a % 2 = 0) ↔ ((a % 2 = 0) ↔ g.2 = 1) := by decide
    exact this g a ha
  rw [exRho_apply, exRho_apply]
  simp only [exF, h1, h2]
  have h3 : CellMap.lenSq (-d) = CellMap.lenSq d := by simp [CellMap.lenSq]
  by_cases hg : g.2 = 1
  · simp only [hg, if_true, iff_true]
  · simp only [hg, if_false, iff_false, h3]
    funext i
    generalize (if a2 = a then (3 : ℝ) else -1) = q
    by_cases hp : a % 2 = 0
    · fin_cases i <;> simp [hp, vec] <;> ring
    · fin_cases i <;> simp [hp, vec] <;> ring

theorem exF_net : NoNetForce exC exF := by
  intro sp hsp a ha d
  obtain rfl : sp = 0 := by change sp < 1 at hsp; omega
  rw [exN] at ha
  rw [show exC.nSp = 1 from rfl, Finset.sum_range_one, exN]
  simp only [Finset.sum_range_succ, Finset.sum_range_zero, exF]
  interval_cases a <;> norm_num <;> module

theorem exF_central (sp a : Nat) (d : V3 ℝ) (sp2 a2 : Nat) : central exF sp a d sp2 a2 = (if a2 = a then (3 : ℝ) else -1) • d := by
  have h3 : CellMap.lenSq (-d) = CellMap.lenSq d := by simp [CellMap.lenSq]
  simp only [central, exF, h3]
  module

theorem exF_linear : Linear exC exF := by
  intro sp _ a _ d sp2 _ a2 _
  simp only [exF_central]
  generalize (if a2 = a then (3 : ℝ) else -1) = q
  funext i
  fin_cases i <;> simp [unit, Fin.sum_univ_three] <;> ring

/-- All conditions of `C99_exact_partial` hold in the example. -/
example : ∃ g, run exC exO exB false exF = .ok g ∧ g 0 0 1 0 0 = vec 0 3 0 ∧ g 0 1 2 0 3 = vec 0 0 (-1) := by
  obtain ⟨g, h1, h2⟩ := C99_exact_partial exC exO exB false exF exGroup exC_pos exB_orth exSep exF_equivariant exF_net exF_linear (by simp)
  refine ⟨g, h1, ?_, ?_⟩
  · rw [h2 0 (by decide) 0 (by decide) 1 0 (by decide) 0 (by decide), exF_central]
    funext i; fin_cases i <;> simp [unit, vec]
  · rw [h2 0 (by decide) 1 (by decide) 2 0 (by decide) 3 (by decide), exF_central]
    funext i; fin_cases i <;> simp [unit, vec]

/-- Same for the finite difference. -/
example : ∃ g, run exC exO exB false (fdiff 0.1 exF (exF 0 0 0)) = .ok g := by
  obtain ⟨g, h1, _⟩ := C99_finite_difference_partial exC exO exB exF (exF 0 0 0) 0.1 exGroup exC_pos exB_orth exSep exF_equivariant exF_net
    (by intro sp _ a _ sp2 _ a2 _; simp [exF, CellMap.lenSq]) (by
      intro sp _ a _ d sp2 _ a2 _
      have h : ∀ d, central (fun sp a d => exF sp a ((0.1 : ℝ) • d)) sp a d sp2 a2 = central exF sp a ((0.1 : ℝ) • d) sp2 a2 := by
        intro d; simp only [central, smul_neg]
      simp only [h, exF_central]
      generalize (if a2 = a then (3 : ℝ) else -1) = q
      funext i
      fin_cases i <;> simp [unit, Fin.sum_univ_three] <;> ring)
  exact ⟨g, h1⟩

example : ∃ ps, find exC exO exB true = .ok ps ∧ ps.length ≤ 12 := by
  obtain ⟨ps, h1, h2, _⟩ := C99_number exC exO exB true exGroup exC_pos exB_orth (by norm_num [exC])
  exact ⟨ps, h1, h2⟩

example : ∃ B, dirBasis 1e-4 exR exO = .ok B ∧ Orthonormal B := by
  obtain ⟨B, h1, h2, _⟩ := C99_directions exR exO 1e-4 (by norm_num [exR, M3.det, M3.box, ofCols, dot, M3.cross, M3.row, vec]) (by norm_num) (by norm_num)
  exact ⟨B, h1, h2⟩

end
end Jdftx.PhonPert
