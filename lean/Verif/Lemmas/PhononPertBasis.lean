import Verif.Lemmas.PhononPertTotal

/-! # Lemmas for C99: directions, weights -/
namespace Jdftx.PhonPert
noncomputable section
open M3

/-! ## Insertion -/

theorem mem_insert' {k : Nat} {v : V3 ℝ} {l : List (Nat × V3 ℝ)} {e : Nat × V3 ℝ} : e ∈ insert k v l ↔ e = (k, v) ∨ e ∈ l := by
  induction l with
  | nil => simp [insert]
  | cons x l ih =>
    unfold insert
    split_ifs
    · simp
    · simp only [List.mem_cons, ih]; tauto

theorem insert_sorted {k : Nat} {v : V3 ℝ} {l : List (Nat × V3 ℝ)} (h : l.Pairwise fun a b => a.1 ≤ b.1) : (insert k v l).Pairwise fun a b => a.1 ≤ b.1 := by
  induction l with
  | nil => simp [insert]
  | cons x l ih =>
    unfold insert
    rw [List.pairwise_cons] at h
    split_ifs with hk
    · refine List.pairwise_cons.2 ⟨fun y hy => ?_, List.pairwise_cons.2 h⟩
      rcases List.mem_cons.1 hy with rfl | hy
      · exact le_of_lt hk
      · exact le_trans (le_of_lt hk) (h.1 y hy)
    · refine List.pairwise_cons.2 ⟨fun y hy => ?_, ih h.2⟩
      rcases mem_insert'.1 hy with rfl | hy
      · exact not_lt.1 hk
      · exact h.1 y hy

theorem getLast_max {l : List (Nat × V3 ℝ)} (h : l.Pairwise fun a b => a.1 ≤ b.1) {e x : Nat × V3 ℝ} (he : l.getLast? = some e) (hx : x ∈ l) : x.1 ≤ e.1 := by
  induction l with
  | nil => simp at hx
  | cons y l ih =>
    rw [List.pairwise_cons] at h
    cases l with
    | nil =>
      simp at he hx
      rw [hx, he]
    | cons z l =>
      rw [List.getLast?_cons_cons] at he
      rcases List.mem_cons.1 hx with rfl | hx
      · exact h.1 e (List.mem_of_getLast? he)
      · exact ih h.2 he hx

/-! ## First list -/

/-- The candidates. -/
def Candidate (R : Mat ℝ) (v : V3 ℝ) : Prop := ∃ c ∈ combos, v = normalized (mulMV R (CellMap.toV c)) ∨ v = normalized (mulVM (CellMap.toV c) (Basis.inv R))

theorem dirList_aux (tol : ℝ) (R : Mat ℝ) (o : Ops) (cs : List Box.IV) (l : List (Nat × V3 ℝ)) (hl : l.Pairwise fun a b => a.1 ≤ b.1) :
    let m := cs.foldl (fun l c =>
      let n := normalized (mulMV R (CellMap.toV c))
      let l := insert (nStabilizer tol n o) n l
      let n := normalized (mulVM (CellMap.toV c) (Basis.inv R))
      insert (nStabilizer tol n o) n l) l
    m.Pairwise (fun a b => a.1 ≤ b.1) ∧
    ∀ e, e ∈ m ↔ e ∈ l ∨ e.1 = nStabilizer tol e.2 o ∧ ∃ c ∈ cs, e.2 = normalized (mulMV R (CellMap.toV c)) ∨ e.2 = normalized (mulVM (CellMap.toV c) (Basis.inv R)) := by
  induction cs generalizing l with
  | nil => exact ⟨hl, fun e => by simp⟩
  | cons c cs ih =>
    have := ih _ (insert_sorted (k := nStabilizer tol (normalized (mulVM (CellMap.toV c) (Basis.inv R))) o) (v := normalized (mulVM (CellMap.toV c) (Basis.inv R)))
      (insert_sorted (k := nStabilizer tol (normalized (mulMV R (CellMap.toV c))) o) (v := normalized (mulMV R (CellMap.toV c))) hl))
    refine ⟨this.1, fun e => ?_⟩
    rw [List.foldl_cons]
    refine (this.2 e).trans ?_
    rw [mem_insert', mem_insert']
    have h1 : ∀ v : V3 ℝ, e = (nStabilizer tol v o, v) ↔ e.1 = nStabilizer tol e.2 o ∧ e.2 = v := by
      intro v
      constructor
      · rintro rfl; exact ⟨rfl, rfl⟩
      · rintro ⟨h, rfl⟩; exact Prod.ext h rfl
    rw [h1, h1]
    simp only [List.mem_cons, exists_eq_or_imp]
    clear this ih h1
    generalize (e.1 = nStabilizer tol e.2 o) = P1
    generalize (e.2 = normalized (mulMV R (CellMap.toV c))) = P2
    generalize (e.2 = normalized (mulVM (CellMap.toV c) (Basis.inv R))) = P3
    generalize (∃ c ∈ cs, e.2 = normalized (mulMV R (CellMap.toV c)) ∨ e.2 = normalized (mulVM (CellMap.toV c) (Basis.inv R))) = P4
    generalize (e ∈ l) = P5
    tauto

theorem dirList_mem (tol : ℝ) (R : Mat ℝ) (o : Ops) (e : Nat × V3 ℝ) : e ∈ dirList tol R o ↔ e.1 = nStabilizer tol e.2 o ∧ Candidate R e.2 := by
  have := (dirList_aux tol R o combos [] List.Pairwise.nil).2 e
  refine this.trans ?_
  simp [Candidate]

theorem dirList_sorted (tol : ℝ) (R : Mat ℝ) (o : Ops) : (dirList tol R o).Pairwise fun a b => a.1 ≤ b.1 := (dirList_aux tol R o combos [] List.Pairwise.nil).1

/-! ## Second list -/

theorem dirList2_aux (tol : ℝ) (o : Ops) (b0 : V3 ℝ) (cs l : List (Nat × V3 ℝ)) : ∀ e,
    e ∈ (open Classical in cs.foldl (fun l e =>
      let n := e.2 - dot e.2 b0 • b0
      if CellMap.lenSq n < tol ^ 2 then l else
      let n := normalized n
      insert (nStabilizer tol n o) n l) l) ↔ e ∈ l ∨ e.1 = nStabilizer tol e.2 o ∧ ∃ x ∈ cs, ¬CellMap.lenSq (x.2 - dot x.2 b0 • b0) < tol ^ 2 ∧
        e.2 = normalized (x.2 - dot x.2 b0 • b0) := by
  classical
  induction cs generalizing l with
  | nil => intro e; simp
  | cons c cs ih =>
    intro e
    rw [List.foldl_cons]
    have h1 : ∀ v : V3 ℝ, e = (nStabilizer tol v o, v) ↔ e.1 = nStabilizer tol e.2 o ∧ e.2 = v := by
      intro v
      constructor
      · rintro rfl; exact ⟨rfl, rfl⟩
      · rintro ⟨h, rfl⟩; exact Prod.ext h rfl
    dsimp only
    split_ifs with h
    · refine (ih l e).trans ?_
      simp only [List.mem_cons, exists_eq_or_imp]
      tauto
    · refine (ih _ e).trans ?_
      rw [mem_insert', h1]
      simp only [List.mem_cons, exists_eq_or_imp]
      tauto

theorem dirList2_mem (tol : ℝ) (o : Ops) (b0 : V3 ℝ) (l : List (Nat × V3 ℝ)) (e : Nat × V3 ℝ) : e ∈ dirList2 tol o b0 l ↔
    e.1 = nStabilizer tol e.2 o ∧ ∃ x ∈ l, ¬CellMap.lenSq (x.2 - dot x.2 b0 • b0) < tol ^ 2 ∧ e.2 = normalized (x.2 - dot x.2 b0 • b0) := by
  refine (dirList2_aux tol o b0 l [] e).trans ?_
  simp

/-! ## Vectors -/

theorem dot_lenSq (v : V3 ℝ) : dot v v = CellMap.lenSq v := rfl

theorem lenSq_pos {v : V3 ℝ} (h : v ≠ 0) : 0 < CellMap.lenSq v := by
  have h0 : 0 ≤ CellMap.lenSq v := by unfold CellMap.lenSq; nlinarith [mul_self_nonneg (v 0), mul_self_nonneg (v 1), mul_self_nonneg (v 2)]
  rcases h0.lt_or_eq with h1 | h1
  · exact h1
  exfalso
  apply h
  unfold CellMap.lenSq at h1
  have e : ∀ i, v i * v i = 0 := by
    have a0 := mul_self_nonneg (v 0); have a1 := mul_self_nonneg (v 1); have a2 := mul_self_nonneg (v 2)
    intro i; fin_cases i <;> simp <;> nlinarith
  funext i
  exact mul_self_eq_zero.1 (e i)

theorem dot_smul_smul (a b : ℝ) (v w : V3 ℝ) : dot (a • v) (b • w) = a * b * dot v w := by simp [dot]; ring

theorem normalized_unit {v : V3 ℝ} (h : 0 < CellMap.lenSq v) : dot (normalized v) (normalized v) = 1 := by
  unfold normalized
  rw [dot_smul_smul, dot_lenSq]
  have hl : Basis.length v * Basis.length v = CellMap.lenSq v := Real.mul_self_sqrt h.le
  have hne : Basis.length v ≠ 0 := fun h0 => by rw [h0] at hl; linarith
  rw [← hl]; field_simp

/-- A lattice vector of a non-degenerate lattice does not vanish. -/
theorem mulMV_ne {R : Mat ℝ} (h : M3.det R ≠ 0) {v : V3 ℝ} (hv : v ≠ 0) : mulMV R v ≠ 0 := by
  rw [mulMV_eq]
  intro h0
  have hd : (Matrix.of R).det ≠ 0 := by rw [← det_eq]; exact h
  exact hv (Matrix.eq_zero_of_mulVec_eq_zero hd h0)

theorem inv_mul {R : Mat ℝ} (h : M3.det R ≠ 0) : Matrix.of (Basis.inv R) * Matrix.of R = 1 := by
  unfold Basis.inv
  rw [smul_eq, adjugate_eq, Matrix.smul_mul, Matrix.adjugate_mul, smul_smul, ← det_eq, one_div, inv_mul_cancel₀ h, one_smul]

theorem mulVM_ne {R : Mat ℝ} (h : M3.det R ≠ 0) {v : V3 ℝ} (hv : v ≠ 0) : mulVM v (Basis.inv R) ≠ 0 := by
  rw [mulVM_eq]
  intro h0
  have := congrArg (fun w => Matrix.vecMul w (Matrix.of R)) h0
  simp only [Matrix.vecMul_vecMul, inv_mul h, Matrix.vecMul_one, Matrix.zero_vecMul] at this
  exact hv this

theorem combos_ne {c : Box.IV} (h : c ∈ combos) : CellMap.toV c ≠ 0 := by
  have h1 : c.x ≠ 0 ∨ c.y ≠ 0 ∨ c.z ≠ 0 := by
    have : ∀ c ∈ combos, c.x ≠ 0 ∨ c.y ≠ 0 ∨ c.z ≠ 0 := by decide
    exact this c h
  intro h0
  have e0 := congrFun h0 0; have e1 := congrFun h0 1; have e2 := congrFun h0 2
  simp only [CellMap.toV, vec, Pi.zero_apply, Int.cast_eq_zero] at e0 e1 e2
  tauto

theorem candidate_unit {R : Mat ℝ} (h : M3.det R ≠ 0) {v : V3 ℝ} (hv : Candidate R v) : dot v v = 1 := by
  obtain ⟨c, hc, rfl | rfl⟩ := hv
  · exact normalized_unit (lenSq_pos (mulMV_ne h (combos_ne hc)))
  · exact normalized_unit (lenSq_pos (mulVM_ne h (combos_ne hc)))

/-- A lattice vector and a reciprocal lattice vector that are orthogonal. -/
theorem candidate_orth {R : Mat ℝ} (h : M3.det R ≠ 0) : ∃ v w, Candidate R v ∧ Candidate R w ∧ dot v w = 0 := by
  refine ⟨normalized (mulMV R (CellMap.toV ⟨0, 1, 0⟩)), normalized (mulVM (CellMap.toV ⟨1, 0, 0⟩) (Basis.inv R)),
    ⟨_, by decide, Or.inl rfl⟩, ⟨_, by decide, Or.inr rfl⟩, ?_⟩
  unfold normalized
  rw [dot_smul_smul]
  have h1 := congrFun (congrFun (inv_mul h) 0) 1
  rw [Matrix.mul_apply] at h1
  simp only [Fin.sum_univ_three, Matrix.of_apply, Matrix.one_apply, Fin.reduceEq, if_false] at h1
  have : dot (mulMV R (CellMap.toV ⟨0, 1, 0⟩)) (mulVM (CellMap.toV ⟨1, 0, 0⟩) (Basis.inv R)) = 0 := by
    simp [dot, mulMV, mulVM, CellMap.toV, vec]
    linear_combination h1
  rw [this, mul_zero]

theorem residual {b v : V3 ℝ} (hb : dot b b = 1) (hv : dot v v = 1) : CellMap.lenSq (v - dot v b • b) = 1 - dot v b ^ 2 := by
  unfold CellMap.lenSq
  simp only [dot] at *
  simp only [Pi.sub_apply, Pi.smul_apply, smul_eq_mul]
  linear_combination hv + (v 0 * b 0 + v 1 * b 1 + v 2 * b 2) ^ 2 * hb

/-- Bessel's inequality for two orthogonal unit vectors. -/
theorem bessel {b v w : V3 ℝ} (hb : dot b b = 1) (hv : dot v v = 1) (hw : dot w w = 1) (hvw : dot v w = 0) : dot v b ^ 2 + dot w b ^ 2 ≤ 1 := by
  have h : 0 ≤ CellMap.lenSq (b - dot v b • v - dot w b • w) := by
    unfold CellMap.lenSq
    nlinarith [mul_self_nonneg ((b - dot v b • v - dot w b • w) 0), mul_self_nonneg ((b - dot v b • v - dot w b • w) 1), mul_self_nonneg ((b - dot v b • v - dot w b • w) 2)]
  have h2 : CellMap.lenSq (b - dot v b • v - dot w b • w) = 1 - dot v b ^ 2 - dot w b ^ 2 := by
    unfold CellMap.lenSq
    simp only [dot] at *
    simp only [Pi.sub_apply, Pi.smul_apply, smul_eq_mul]
    linear_combination hb + (v 0 * b 0 + v 1 * b 1 + v 2 * b 2) ^ 2 * hv + (w 0 * b 0 + w 1 * b 1 + w 2 * b 2) ^ 2 * hw
      + 2 * (v 0 * b 0 + v 1 * b 1 + v 2 * b 2) * (w 0 * b 0 + w 1 * b 1 + w 2 * b 2) * hvw
  linarith

theorem getLast_ex {α : Type} {l : List α} {x : α} (h : x ∈ l) : ∃ e, l.getLast? = some e ∧ e ∈ l := by
  have : l ≠ [] := List.ne_nil_of_mem h
  exact ⟨l.getLast this, List.getLast?_eq_some_getLast this, List.getLast_mem this⟩

theorem dirBasis_ok {tol : ℝ} {R : Mat ℝ} (o : Ops) (hR : M3.det R ≠ 0) (ht : 0 < tol) (ht2 : tol ≤ 1 / 2) :
    ∃ B, dirBasis tol R o = .ok B ∧ Orthonormal B ∧ Candidate R (B 0) ∧ ∀ v, Candidate R v → nStabilizer tol v o ≤ nStabilizer tol (B 0) o := by
  obtain ⟨v, w, hv, hw, hvw⟩ := candidate_orth hR
  have hv' : (nStabilizer tol v o, v) ∈ dirList tol R o := (dirList_mem tol R o _).2 ⟨rfl, hv⟩
  have hw' : (nStabilizer tol w o, w) ∈ dirList tol R o := (dirList_mem tol R o _).2 ⟨rfl, hw⟩
  obtain ⟨e0, h0, hm0⟩ := getLast_ex hv'
  obtain ⟨hk0, hc0⟩ := (dirList_mem tol R o e0).1 hm0
  have hu0 := candidate_unit hR hc0
  -- one of the two orthogonal candidates has a component orthogonal to the first direction
  have hex : ∃ x ∈ dirList tol R o, ¬CellMap.lenSq (x.2 - dot x.2 e0.2 • e0.2) < tol ^ 2 := by
    have hb := bessel hu0 (candidate_unit hR hv) (candidate_unit hR hw) hvw
    by_cases h1 : dot v e0.2 ^ 2 ≤ 1 / 2
    · exact ⟨_, hv', by rw [residual hu0 (candidate_unit hR hv)]; nlinarith⟩
    · exact ⟨_, hw', by rw [residual hu0 (candidate_unit hR hw)]; nlinarith⟩
  obtain ⟨x, hx, hxr⟩ := hex
  obtain ⟨e1, h1, hm1⟩ := getLast_ex ((dirList2_mem tol o e0.2 (dirList tol R o)
    (nStabilizer tol (normalized (x.2 - dot x.2 e0.2 • e0.2)) o, normalized (x.2 - dot x.2 e0.2 • e0.2))).2 ⟨rfl, x, hx, hxr, rfl⟩)
  obtain ⟨_, x1, hx1, hr1, he1⟩ := (dirList2_mem tol o e0.2 (dirList tol R o) e1).1 hm1
  have hpos : 0 < CellMap.lenSq (x1.2 - dot x1.2 e0.2 • e0.2) := lt_of_lt_of_le (by positivity) (not_lt.1 hr1)
  have hu1 : dot e1.2 e1.2 = 1 := by rw [he1]; exact normalized_unit hpos
  have ho : dot e0.2 e1.2 = 0 := by
    rw [he1]
    unfold normalized
    have : dot e0.2 (x1.2 - dot x1.2 e0.2 • e0.2) = 0 := by
      simp only [dot] at *
      simp only [Pi.sub_apply, Pi.smul_apply, smul_eq_mul]
      linear_combination -(x1.2 0 * e0.2 0 + x1.2 1 * e0.2 1 + x1.2 2 * e0.2 2) * hu0
    have h2 := dot_smul_smul 1 (1 / Basis.length (x1.2 - dot x1.2 e0.2 • e0.2)) e0.2 (x1.2 - dot x1.2 e0.2 • e0.2)
    rw [one_smul, this] at h2
    rw [h2, mul_zero]
  refine ⟨_, by unfold dirBasis; rw [h0]; simp only; rw [h1], ?_, hc0, fun v hv => ?_⟩
  · intro i j
    simp only [dot] at hu0 hu1 ho
    fin_cases i <;> fin_cases j <;> simp [dot, cross, vec]
    · exact hu0
    · exact ho
    · ring
    · linear_combination ho
    · exact hu1
    · ring
    · ring
    · ring
    · linear_combination (e1.2 0 * e1.2 0 + e1.2 1 * e1.2 1 + e1.2 2 * e1.2 2) * hu0 + hu1 - (e0.2 0 * e1.2 0 + e0.2 1 * e1.2 1 + e0.2 2 * e1.2 2) * ho
  · have := getLast_max (dirList_sorted tol R o) h0 ((dirList_mem tol R o (nStabilizer tol v o, v)).2 ⟨rfl, hv⟩)
    simpa only [hk0] using this

/-! ## Weights and number of displacements -/

variable {c : Cell} {o : Ops} {B : Fin 3 → V3 ℝ}

theorem foldl_weight (tol : ℝ) (n : Nat) (es L : List Entry) : ((es.foldl (fun l e => merge tol n e l) L).map fun x => x.p.weight).sum
    = (L.map fun x => x.p.weight).sum + (es.map fun x => x.p.weight).sum := by
  induction es generalizing L with
  | nil => simp
  | cons e es ih => rw [List.foldl_cons, ih, merge_weight, List.map_cons, List.sum_cons]; ring

theorem foldl_length (tol : ℝ) (n : Nat) (es L : List Entry) : (es.foldl (fun l e => merge tol n e l) L).length ≤ L.length + es.length := by
  induction es generalizing L with
  | nil => simp
  | cons e es ih =>
    rw [List.foldl_cons]
    have := ih (merge tol n e L)
    have := merge_length (tol := tol) (n := n) (e := e) (L := L)
    simp only [List.length_cons]; omega

theorem signed_weight (useVPT : Bool) (p : Pert) : ((signed c o useVPT p).map fun x => x.weight).sum = p.weight := by
  unfold signed
  split_ifs
  · simp
  · simp; ring

theorem signed_length (useVPT : Bool) (p : Pert) : (signed c o useVPT p).length ≤ 2 := by
  unfold signed
  split_ifs <;> simp

theorem flatMap_length_le {α β : Type} (l : List α) (t : α → List β) (m : Nat) (h : ∀ x ∈ l, (t x).length ≤ m) : (l.flatMap t).length ≤ m * l.length := by
  induction l with
  | nil => simp
  | cons x l ih =>
    rw [List.flatMap_cons, List.length_append, List.length_cons, Nat.mul_succ]
    have := h x (List.mem_cons_self ..)
    have := ih fun y hy => h y (List.mem_cons_of_mem _ hy)
    omega

theorem perts_weight (useVPT : Bool) (sp : Nat) : ((perts c o B useVPT sp).map fun x => x.weight).sum = (c.nAt sp * 3 : ℕ) / (o.nSym : ℝ) := by
  unfold perts
  rw [flatMap_sum']
  simp only [signed_weight]
  rw [foldl_weight, List.map_map]
  unfold pertSp
  rw [List.map_map, Phonon.list_range_sum]
  simp only [Function.comp_apply, List.map_nil, List.sum_nil, zero_add, Finset.sum_const, Finset.card_range, nsmul_eq_mul]
  ring

theorem perts_length (useVPT : Bool) (sp : Nat) : (perts c o B useVPT sp).length ≤ 2 * (c.nAt sp * 3) := by
  unfold perts
  refine (flatMap_length_le _ _ 2 fun x _ => signed_length useVPT x.p).trans ?_
  have := foldl_length c.tol (c.nAt sp * 3) ((pertSp c o B sp).map fun p => (⟨p, projOf c o p⟩ : Entry)) []
  simp only [List.length_nil, List.length_map, pertSp, List.length_range] at this ⊢
  omega

end
end Jdftx.PhonPert
