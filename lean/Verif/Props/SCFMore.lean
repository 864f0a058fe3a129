import Verif.Props.SCF
import Verif.Lemmas.SCFHistory
import Verif.Lemmas.ExCorr

/-!
# C107, continued: spin axes, exchange with the electronic state, history files, change of eigenvalues
-/
namespace Jdftx.SCF
open Box ExCorr Cavity
open scoped ComplexConjugate Matrix
noncomputable section

variable (g : Grid) (p : Params) {m : Mode} {nRho : ℕ}

/-- Mixing coefficients from a number of residuals and their overlaps. -/
def coeffsN (n : ℕ) (ov : ℕ → ℕ → ℝ) (j : ℕ) : ℝ :=
  if h : j < n then (Matrix.of fun i k : Fin (n + 1) => if i.val < n then (if k.val < n then ov i k else 1) else (if k.val < n then 1 else (0 : ℝ)))⁻¹ (Fin.castSucc ⟨j, h⟩) (Fin.last n) else 0

theorem mixed_range (e : Pulay.Env ℝ (Var m nRho)) (s : Pulay.PState ℝ (Var m nRho)) : Pulay.mixed e s (Pulay.coeffs s) =
    ∑ j ∈ Finset.range s.ress.length, (coeffsN s.ress.length s.ov j • s.vars.getD j 0 + coeffsN s.ress.length s.ov j • e.precond (s.ress.getD j 0)) := by
  unfold Pulay.mixed
  rw [← List.ofFn_eq_map, List.sum_ofFn, Finset.sum_range]
  refine Finset.sum_congr rfl fun j _ => ?_
  have : coeffsN s.ress.length s.ov j = Pulay.coeffs s j := by
    unfold coeffsN
    rw [dif_pos j.2]
    rfl
  rw [this]

theorem coeffsN_congr (n : ℕ) (ov ov' : ℕ → ℕ → ℝ) (h : ∀ i < n, ∀ k < n, ov i k = ov' i k) : coeffsN n ov = coeffsN n ov' := by
  funext j
  unfold coeffsN
  have : (Matrix.of fun i k : Fin (n + 1) => if i.val < n then (if k.val < n then ov i k else 1) else (if k.val < n then 1 else (0 : ℝ))) =
      Matrix.of fun i k : Fin (n + 1) => if i.val < n then (if k.val < n then ov' i k else 1) else (if k.val < n then 1 else (0 : ℝ)) := by
    ext i k
    simp only [Matrix.of_apply]
    split
    · rename_i hi
      split
      · rename_i hk
        exact h i hi k hk
      · rfl
    · rfl
  rw [this]

theorem rotated_zero (U : Matrix (Fin 2) (Fin 2) ℂ) (j : ℕ) : SpinDiag.Rotated U (spinAt (toSpin .noncollinear (0 : Fin 4 → Field)) j) (spinAt (toSpin .noncollinear (0 : Fin 4 → Field)) j) := by
  have h : sm 0 j = 0 := by
    rw [sm_eq]
    ext i k
    fin_cases i <;> fin_cases k <;> simp
  show sm 0 j = U * sm 0 j * Uᴴ
  rw [h]
  simp

theorem rotated_comb (U : Matrix (Fin 2) (Fin 2) ℂ) (c d : ℝ) {x y x' y' : Var .noncollinear nRho} (h : RotatedVar g U x x') (h' : RotatedVar g U y y') :
    RotatedVar g U (c • x + d • y) (c • x' + d • y') := by
  have e : ∀ (a b a' b' : Fin 4 → Field) (j : ℕ), sm a' j = U * sm a j * Uᴴ → sm b' j = U * sm b j * Uᴴ → sm (c • a' + d • b') j = U * sm (c • a + d • b) j * Uᴴ := by
    intro a b a' b' j h1 h2
    rw [sm_add, sm_add, h1, h2]
    simp only [Matrix.mul_add, Matrix.add_mul, Matrix.mul_smul, Matrix.smul_mul]
  exact ⟨fun j hj => e _ _ _ _ j (h.1 j hj) (h'.1 j hj), fun j hj => e _ _ _ _ j (h.2 j hj) (h'.2 j hj)⟩

theorem rotated_precondition {U : Matrix (Fin 2) (Fin 2) ℂ} (hU : U ∈ Matrix.unitaryGroup (Fin 2) ℂ) {x x' : Var .noncollinear nRho} (h : RotatedVar g U x x') :
    RotatedVar g U (precondition g p x) (precondition g p x') := by
  have e : ∀ a a' : Fin 4 → Field, (∀ j < nr g.S, SpinDiag.Rotated U (spinAt (toSpin .noncollinear a) j) (spinAt (toSpin .noncollinear a') j)) → ∀ j,
      SpinDiag.Rotated U (spinAt (toSpin .noncollinear (enhance (m := .noncollinear) p fun s => conv g (kerkerMix g p) (a s))) j)
        (spinAt (toSpin .noncollinear (enhance (m := .noncollinear) p fun s => conv g (kerkerMix g p) (a' s))) j) := by
    intro a a' ha j
    refine sm_conv g hU (kerkerMix g p) (p.mixFractionMag / p.mixFraction) a _ a' _ ?_ ?_ ?_ ?_ ha j
    · rfl
    · intro s hs; funext j; exact if_neg (fun h => hs (Fin.ext h))
    · rfl
    · intro s hs; funext j; exact if_neg (fun h => hs (Fin.ext h))
  refine ⟨fun j _ => e _ _ h.1 j, fun j _ => ?_⟩
  by_cases ht : p.mixTau
  · simp only [precondition, ht, if_true]
    exact e _ _ h.2 j
  · simp only [precondition, ht, if_false, Bool.false_eq_true]
    exact rotated_zero U j

theorem rotated_metric {U : Matrix (Fin 2) (Fin 2) ℂ} (hU : U ∈ Matrix.unitaryGroup (Fin 2) ℂ) {x x' : Var .noncollinear nRho} (h : RotatedVar g U x x') :
    RotatedVar g U (applyMetric g p x) (applyMetric g p x') := by
  have e : ∀ a a' : Fin 4 → Field, (∀ j < nr g.S, SpinDiag.Rotated U (spinAt (toSpin .noncollinear a) j) (spinAt (toSpin .noncollinear a') j)) → ∀ j,
      SpinDiag.Rotated U (spinAt (toSpin .noncollinear fun s => conv g (diisMetric g p) (a s)) j) (spinAt (toSpin .noncollinear fun s => conv g (diisMetric g p) (a' s)) j) := by
    intro a a' ha j
    exact sm_conv g hU (diisMetric g p) 1 a _ a' _ rfl (fun s _ => by funext j; rw [mul_one]) rfl (fun s _ => by funext j; rw [mul_one]) ha j
  refine ⟨fun j _ => e _ _ h.1 j, fun j _ => ?_⟩
  by_cases ht : p.mixTau
  · simp only [applyMetric, ht, if_true]
    exact e _ _ h.2 j
  · simp only [applyMetric, ht, if_false, Bool.false_eq_true]
    exact rotated_zero U j

/-- **C107 (spin axes).** Mixing noncollinear densities does not depend on the spin axes: for a history rotated by any unitary matrix the new density is the rotated one. -/
theorem C107_axes (hu : p.hasU = false) (U : Matrix (Fin 2) (Fin 2) ℂ) (hU : U ∈ Matrix.unitaryGroup (Fin 2) ℂ) (s s' : Pulay.PState ℝ (Var .noncollinear nRho))
    (hc : Pulay.Consistent (env g p) s) (hc' : Pulay.Consistent (env g p) s') (hl : s'.ress.length = s.ress.length)
    (hv : ∀ i < s.ress.length, RotatedVar g U (s.vars.getD i 0) (s'.vars.getD i 0)) (hr : ∀ i < s.ress.length, RotatedVar g U (s.ress.getD i 0) (s'.ress.getD i 0)) :
    RotatedVar g U (Pulay.mixed (env g p) s (Pulay.coeffs s)) (Pulay.mixed (env g p) s' (Pulay.coeffs s')) := by
  have hov : ∀ i < s.ress.length, ∀ k < s.ress.length, s.ov i k = s'.ov i k := by
    intro i hi k hk
    have hi' : i < s'.ress.length := by rw [hl]; exact hi
    have hk' : k < s'.ress.length := by rw [hl]; exact hk
    have e : ∀ (t : Pulay.PState ℝ (Var .noncollinear nRho)), Pulay.Consistent (env g p) t → i < t.ress.length → k < t.ress.length → t.ov i k = dot g p (t.ress.getD i 0) (applyMetric g p (t.ress.getD k 0)) := by
      intro t ht h1 h2
      refine ht.overlap i k _ _ ?_ ?_
      · rw [List.getElem?_eq_getElem h1, List.getD_eq_getElem?_getD, List.getElem?_eq_getElem h1]; rfl
      · rw [List.getElem?_eq_getElem h2, List.getD_eq_getElem?_getD, List.getElem?_eq_getElem h2]; rfl
    rw [e s hc hi hk, e s' hc' hi' hk']
    have ha := hr i hi
    have hb := rotated_metric g p hU (hr k hk)
    unfold dot
    rw [hu]
    simp only [Bool.false_eq_true, if_false]
    rw [dot_rotated g hU _ _ _ _ ha.1 hb.1, dot_rotated g hU _ _ _ _ ha.2 hb.2]
  rw [mixed_range, mixed_range, hl, coeffsN_congr _ _ _ hov]
  have key : ∀ n ≤ s.ress.length, RotatedVar g U
      (∑ j ∈ Finset.range n, (coeffsN s.ress.length s'.ov j • s.vars.getD j 0 + coeffsN s.ress.length s'.ov j • (env g p).precond (s.ress.getD j 0)))
      (∑ j ∈ Finset.range n, (coeffsN s.ress.length s'.ov j • s'.vars.getD j 0 + coeffsN s.ress.length s'.ov j • (env g p).precond (s'.ress.getD j 0))) := by
    intro n hn
    induction n with
    | zero => exact ⟨fun j _ => rotated_zero U j, fun j _ => rotated_zero U j⟩
    | succ n ih =>
      rw [Finset.sum_range_succ, Finset.sum_range_succ]
      have h1 := rotated_comb g U (coeffsN s.ress.length s'.ov n) (coeffsN s.ress.length s'.ov n) (hv n (by omega)) (rotated_precondition g p hU (hr n (by omega)))
      have h2 := rotated_comb g U 1 1 (ih (by omega)) h1
      simp only [one_smul] at h2
      exact h2
  exact key _ le_rfl

/-- **C107 (spin axes, potentials).** When potentials are mixed, the size of a residual depends on the spin axes: a magnetic field across the axis counts four times as much as the same field
along it. -/
theorem C107_potential_axes_fails (hg : GridValid g) (hp : ParamsValid p) :
    ∃ U ∈ Matrix.unitaryGroup (Fin 2) ℂ, ∃ V V' : Fin 4 → Field, (∀ j, potentialMatrix (spinAt V' j) = U * potentialMatrix (spinAt V j) * Uᴴ) ∧
      0 < size g p ((fromSpin .noncollinear V, 0, 0) : Var .noncollinear nRho) ∧
      size g p ((fromSpin .noncollinear V', 0, 0) : Var .noncollinear nRho) = 4 * size g p ((fromSpin .noncollinear V, 0, 0) : Var .noncollinear nRho) := by
  have hc : ((Real.sqrt 2)⁻¹ : ℝ) * (Real.sqrt 2)⁻¹ = 1 / 2 := by
    rw [← mul_inv, Real.mul_self_sqrt (by norm_num)]; norm_num
  set c : ℝ := (Real.sqrt 2)⁻¹ with hcd
  have hcc : (c : ℂ) * c = 1 / 2 := by rw [← Complex.ofReal_mul, hc]; norm_num
  have hcc2 : (c : ℂ) ^ 2 = 1 / 2 := by rw [sq]; exact hcc
  refine ⟨!![(c : ℂ), c; c, -c], ?_, ![fun _ => 1, fun _ => -1, fun _ => 0, fun _ => 0], ![fun _ => 0, fun _ => 0, fun _ => 2, fun _ => 0], ?_, ?_, ?_⟩
  · rw [Matrix.mem_unitaryGroup_iff]
    ext i k
    fin_cases i <;> fin_cases k <;> simp [Matrix.mul_apply, Fin.sum_univ_two, Matrix.star_apply, hcc] <;> norm_num
  · intro j
    ext i k
    fin_cases i <;> fin_cases k <;> simp [potentialMatrix, spinAt, Matrix.mul_apply, Fin.sum_univ_two, hcc] <;> norm_num
  · refine lt_of_le_of_ne ((C107_inner_product g p hg hp).2 _).1 fun h => ?_
    have h0 := (((C107_inner_product g p hg hp).2 _).2.1 h.symm).1 1 0 (nr_pos g.S hg.pos)
    simp [fromSpin] at h0
  · have e : ∀ b : Fin 4 → Field, size g p ((fromSpin .noncollinear b, 0, 0) : Var .noncollinear nRho) = g.dV * ∑ s : Fin 4, ∑ j ∈ Finset.range (nr g.S), fromSpin .noncollinear b s j * conv g (diisMetric g p) (fromSpin .noncollinear b s) j := by
      intro b
      show form g p _ _ = _
      rw [form_eq]
      simp
    have z : conv g (diisMetric g p) (fun _ => 0) = fun _ => 0 := by
      have := conv_smul g (diisMetric g p) 0 (fun _ => 0)
      simpa using this
    have two : ∀ c : ℝ, conv g (diisMetric g p) (fun _ => c) = fun j => c * conv g (diisMetric g p) (fun _ => 1) j := by
      intro c
      have := conv_smul g (diisMetric g p) c (fun _ => 1)
      simpa using this
    rw [e, e, Fin.sum_univ_four, Fin.sum_univ_four]
    simp only [fromSpin, Matrix.cons_val_zero, Matrix.cons_val_one, Matrix.cons_val]
    norm_num [z]
    rw [two 4, two 2]
    simp only [← Finset.mul_sum]
    ring

/-- **C107 (exchange with the electronic state).** Writing back the variable that was read changes nothing; a variable written is the one read next; nothing else is changed. -/
theorem C107_state (s : State m nRho) (v : Var m nRho) :
    setVariable p (getVariable p s) s = s ∧ Same g p (getVariable p (setVariable p v s)) v ∧
      (p.mixDensity = true → (setVariable p v s).V = s.V ∧ (setVariable p v s).Vtau = s.Vtau ∧ (setVariable p v s).Urho = s.Urho) ∧
      (p.mixDensity = false → (setVariable p v s).n = s.n ∧ (setVariable p v s).tau = s.tau ∧ (setVariable p v s).rho = s.rho) := by
  have h1 : ∀ n : Fin (nIn m) → Field, toSpin m (fromSpin m n) = n := by
    intro n
    cases m
    · rfl
    · funext s j
      fin_cases s
      · show 0.5 * ((n 0 j + n 1 j) + (n 0 j - n 1 j)) = n 0 j; ring
      · show 0.5 * ((n 0 j + n 1 j) - (n 0 j - n 1 j)) = n 1 j; ring
    · funext s j
      fin_cases s
      · show 0.5 * ((n 0 j + n 1 j) + (n 0 j - n 1 j)) = n 0 j; ring
      · show 0.5 * ((n 0 j + n 1 j) - (n 0 j - n 1 j)) = n 1 j; ring
      · show 0.5 * (2 * n 2 j) = n 2 j; ring
      · show -0.5 * (-2 * n 3 j) = n 3 j; ring
  have h2 : ∀ n : Fin (nIn m) → Field, fromSpin m (toSpin m n) = n := by
    intro n
    cases m
    · rfl
    · funext s j
      fin_cases s
      · show 0.5 * (n 0 j + n 1 j) + 0.5 * (n 0 j - n 1 j) = n 0 j; ring
      · show 0.5 * (n 0 j + n 1 j) - 0.5 * (n 0 j - n 1 j) = n 1 j; ring
    · funext s j
      fin_cases s
      · show 0.5 * (n 0 j + n 1 j) + 0.5 * (n 0 j - n 1 j) = n 0 j; ring
      · show 0.5 * (n 0 j + n 1 j) - 0.5 * (n 0 j - n 1 j) = n 1 j; ring
      · show 2 * (0.5 * n 2 j) = n 2 j; ring
      · show -2 * (-0.5 * n 3 j) = n 3 j; ring
  refine ⟨?_, ?_, ?_, ?_⟩
  · cases hd : p.mixDensity <;> cases ht : p.mixTau <;> cases hu : p.hasU <;> simp [setVariable, getVariable, hd, ht, hu, h1]
  · refine ⟨?_, ?_, ?_⟩
    · intro q j _
      cases hd : p.mixDensity <;> simp [setVariable, getVariable, hd, h2]
    · intro ht q j _
      cases hd : p.mixDensity <;> simp [setVariable, getVariable, hd, ht, h2]
    · intro hu i
      cases hd : p.mixDensity <;> simp [setVariable, getVariable, hd, hu]
  · intro hd; simp [setVariable, hd]
  · intro hd; simp [setVariable, hd]

/-- **C107 (history files).** A saved history is read back with the same content, the latest `history` pairs being kept. -/
theorem C107_history (s s0 : Pulay.PState ℝ (Var m nRho)) (hN : 0 < nr g.S) (hl : s.vars.length = s.ress.length) (hh : s.ress.length ≤ p.history) :
    ∃ pairs, readPairs g p m nRho (saveState g p s) = .ok pairs ∧ (Pulay.loadState (env g p) pairs s0).vars.length = s.vars.length ∧
      (Pulay.loadState (env g p) pairs s0).ress.length = s.ress.length ∧
      ∀ i < s.ress.length, Same g p ((Pulay.loadState (env g p) pairs s0).vars.getD i 0) (s.vars.getD i 0) ∧ Same g p ((Pulay.loadState (env g p) pairs s0).ress.getD i 0) (s.ress.getD i 0) := by
  set c := variableSize g p m nRho with hc
  have hcp : 0 < c := by
    have : 0 < nIn m := by cases m <;> simp
    have : 0 < nr g.S * nIn m := Nat.mul_pos hN this
    rw [hc]
    unfold variableSize
    split <;> omega
  have hb : ∀ x ∈ s.vars.zip s.ress, (writeVariable g p x.1 ++ writeVariable g p x.2).length = 2 * c := fun x _ => by
    rw [List.length_append, write_length, write_length]; ring
  have hlen : (saveState g p s).length = s.ress.length * (2 * c) := by
    unfold saveState
    rw [flatMap_length _ (2 * c) _ hb, List.length_zip, hl, Nat.min_self]
  have hpairs : readPairs g p m nRho (saveState g p s) = .ok ((s.vars.zip s.ress).map fun x => (stored g p x.1, stored g p x.2)) := by
    unfold readPairs
    simp only [← hc]
    rw [hlen, if_neg (by simp), Nat.mul_div_cancel _ (by omega)]
    congr 1
    apply List.ext_getElem
    · simp [hl]
    · intro i h1 h2
      have hi : i < (s.vars.zip s.ress).length := by simpa using h2
      simp only [List.getElem_map, List.getElem_range]
      have hd : (saveState g p s).drop (i * (2 * c)) = writeVariable g p (s.vars.zip s.ress)[i].1 ++ (writeVariable g p (s.vars.zip s.ress)[i].2 ++ ((s.vars.zip s.ress).drop (i + 1)).flatMap fun x => writeVariable g p x.1 ++ writeVariable g p x.2) := by
        unfold saveState
        rw [flatMap_drop _ (2 * c) _ hb, List.drop_eq_getElem_cons hi, List.flatMap_cons, List.append_assoc]
      have hd2 : (saveState g p s).drop (i * (2 * c) + c) = writeVariable g p (s.vars.zip s.ress)[i].2 ++ ((s.vars.zip s.ress).drop (i + 1)).flatMap fun x => writeVariable g p x.1 ++ writeVariable g p x.2 := by
        rw [← List.drop_drop, hd]
        have hw : (writeVariable g p (s.vars.zip s.ress)[i].1).length = c := write_length g p _
        rw [← hw, List.drop_left]
      rw [hd, hd2, read_write, read_write]
  refine ⟨_, hpairs, ?_⟩
  have hz : (s.vars.zip s.ress).length = s.ress.length := by rw [List.length_zip, hl, Nat.min_self]
  have hk : s.ress.length - (env g p : Pulay.Env ℝ (Var m nRho)).history = 0 := Nat.sub_eq_zero_of_le hh
  simp only [Pulay.loadState, hk, List.drop_zero, List.map_map, List.length_map, hz]
  refine ⟨hl.symm, trivial, fun i hi => ?_⟩
  have hiz : i < (s.vars.zip s.ress).length := by rw [hz]; exact hi
  have hiv : i < s.vars.length := by rw [hl]; exact hi
  rw [List.getD_eq_getElem _ _ (by simpa using hiz), List.getD_eq_getElem _ _ hiv, List.getD_eq_getElem _ _ (by simpa using hiz), List.getD_eq_getElem _ _ hi]
  simp only [List.getElem_map, Function.comp, List.getElem_zip]
  exact ⟨stored_same g p _, stored_same g p _⟩

/-- **C107 (wrong files).** A file that does not hold a whole number of pairs stops the program. -/
theorem C107_file_size (d : List ℝ) : readPairs g p m nRho d = .error .die ↔ ¬ 2 * variableSize g p m nRho ∣ d.length := by
  unfold readPairs
  simp only [Nat.dvd_iff_mod_eq_zero]
  split
  · rename_i h; simp [h]
  · rename_i h; simpa using h

/-- **C107 (change of eigenvalues).** The reported change is the root mean square over all bands and states with their weights, for every number of processes. -/
theorem C107_eigenvalues (P nStates nBands : ℕ) (hP : 0 < P) (w : ℕ → ℝ) (e1 e2 : ℕ → ℕ → ℝ) :
    eigDiffRMS P nStates nBands w e1 e2 =
      Real.sqrt ((∑ q ∈ Finset.range nStates, ∑ b ∈ Finset.range nBands, w q * (e1 q b - e2 q b) ^ 2) / (nBands * ∑ q ∈ Finset.range nStates, w q)) := by
  have h : ∀ f : ℕ → ℕ → ℝ, allReduce P (fun r => ∑ q ∈ Finset.range nStates, if mine nStates P r q then ∑ b ∈ Finset.range nBands, f q b else 0) =
      ∑ q ∈ Finset.range nStates, ∑ b ∈ Finset.range nBands, f q b := by
    intro f
    unfold allReduce
    rw [Finset.sum_comm]
    exact Finset.sum_congr rfl fun q hq => mine_sum nStates P q hP (Finset.mem_range.1 hq) _
  unfold eigDiffRMS
  simp only [h]
  congr 2
  · exact Finset.sum_congr rfl fun q _ => Finset.sum_congr rfl fun b _ => by ring
  · simp only [Finset.sum_const, Finset.card_range, nsmul_eq_mul, Finset.mul_sum]

/-! ### Examples -/

/-- A grid of 2×1×1 points and unit reciprocal lattice vectors. -/
def exGrid : Grid := ⟨⟨2, 1, 1⟩, fun i k => if i = k then 1 else 0, 1, 0.5⟩

theorem exGrid_valid : GridValid exGrid := by
  refine ⟨⟨by decide, by decide, by decide⟩, by norm_num [exGrid], fun x y z h => ?_⟩
  have h0 := h 0
  have h1 := h 1
  have h2 := h 2
  simp [exGrid] at h0 h1 h2
  exact ⟨h0, h1, h2⟩

def exParams : Params := ⟨true, 0.5, 1.5, 0.8, 0.8, -1, none, false, false, 10⟩

theorem exParams_valid : ParamsValid exParams := by
  refine ⟨by norm_num [exParams], by norm_num [exParams], ?_⟩
  have : kappaSq exParams = 0 := by
    unfold kappaSq exParams
    rw [if_neg (by norm_num)]
  rw [this]

example (i : ℕ) := C107_kernels exGrid exParams exGrid_valid exParams_valid i
example := C107_inner_product (m := .noncollinear) (nRho := 3) exGrid exParams exGrid_valid exParams_valid
example := C107_potential_axes_fails (nRho := 0) exGrid { exParams with mixDensity := false } exGrid_valid ⟨by norm_num [exParams], by norm_num [exParams], exParams_valid.kappa⟩

theorem exGrid_shortest : lenSq exGrid (1, 0, 0) ≤ dblMax := by
  have h1 : lenSq exGrid (1, 0, 0) = 1 := by simp [lenSq, gvec, exGrid]
  rw [h1]
  unfold dblMax
  have h2 : ((2 : ℝ)⁻¹) ^ 52 ≤ 1 := pow_le_one₀ (by norm_num) (by norm_num)
  have h3 : (1 : ℝ) ≤ 2 ^ 1023 := one_le_pow₀ (by norm_num)
  generalize ((2 : ℝ)⁻¹) ^ 52 = a at h2
  generalize (2 : ℝ) ^ 1023 = b at h3
  nlinarith

example := C107_shortest exGrid exGrid_valid exGrid_shortest

/-- A history of one variable and its residual. -/
def single (g : Grid) (p : Params) (v r : Var m nRho) : Pulay.PState ℝ (Var m nRho) := Pulay.updateOverlap (env g p) ⟨[v], [r], fun _ _ => 0⟩

theorem single_consistent (h : 0 < p.history) (v r : Var m nRho) : Pulay.Consistent (env g p) (single g p v r) := by
  refine ⟨rfl, h, ?_⟩
  intro i j a b hi hj
  have li : i < 1 := (List.getElem?_eq_some_iff.mp hi).1
  have lj : j < 1 := (List.getElem?_eq_some_iff.mp hj).1
  obtain rfl : i = 0 := by omega
  obtain rfl : j = 0 := by omega
  have ha : a = r := by simpa [single, Pulay.updateOverlap] using hi.symm
  have hb : b = r := by simpa [single, Pulay.updateOverlap] using hj.symm
  rw [ha, hb]
  rfl

/-- One residual of an unpolarized density: the mixer can proceed. -/
def exState : Pulay.PState ℝ (Var .unpolarized 0) := single exGrid exParams (fun _ j => if j = 0 then 3 else 1, 0, 0) (fun _ j => if j = 0 then -1 else 1, 0, 0)

theorem exState_independent : ∀ a, Same exGrid exParams (combine exState.ress a) 0 → a = 0 := by
  intro a h
  have h0 := h.1 0 1 (by decide)
  funext i
  have hi : i = ⟨0, by decide⟩ := Fin.ext (by have := i.2; have h1 : exState.ress.length = 1 := rfl; omega)
  have e : (combine exState.ress a).1 0 1 = a ⟨0, by decide⟩ := by
    show (∑ j : Fin 1, a j • exState.ress.get j).1 0 1 = _
    rw [Fin.sum_univ_one]
    show a _ * (if 1 = 0 then -1 else 1) = _
    rw [if_neg (by norm_num), mul_one]
    rfl
  rw [e] at h0
  rw [hi]
  exact h0

theorem exState_det : IsUnit (Pulay.bordered exState).det :=
  C107_solvable exGrid exParams exGrid_valid exParams_valid exState (single_consistent _ _ (by decide) _ _) (by decide) exState_independent

example (b : Fin exState.ress.length → ℝ) (hb : ∑ j, b j = 1) := C107_smallest exGrid exParams exGrid_valid exParams_valid exState (single_consistent _ _ (by decide) _ _) exState_det b hb
example (s0 : Pulay.PState ℝ (Var .unpolarized 0)) := C107_history exGrid exParams exState s0 (by decide) rfl (by decide)
example : electrons exGrid (Pulay.mixed (env exGrid exParams) exState (Pulay.coeffs exState)) = 2 := by
  refine electrons_mixed exGrid exParams exGrid_valid.pos 2 exState rfl ?_ ?_ exState_det
  · intro v hv
    obtain rfl := List.mem_singleton.1 hv
    rw [electrons_eq]
    show 0.5 * ∑ j ∈ Finset.range 2, (if j = 0 then (3 : ℝ) else 1) = 2
    norm_num [Finset.sum_range_succ]
  · intro v hv
    obtain rfl := List.mem_singleton.1 hv
    rw [electrons_eq]
    show 0.5 * ∑ j ∈ Finset.range 2, (if j = 0 then (-1 : ℝ) else 1) = 0
    norm_num [Finset.sum_range_succ]

/-- A self-consistent state: the equations for the coefficients still have a solution. -/
theorem single_zero_det (v : Var m nRho) : IsUnit (Pulay.bordered (single g p v 0)).det := by
  rw [isUnit_iff_ne_zero]
  intro h0
  obtain ⟨x, hx, hz⟩ := Matrix.exists_mulVec_eq_zero_iff.2 h0
  have e : ∀ i, (Pulay.bordered (single g p v 0) *ᵥ x) i = Pulay.bordered (single g p v 0) i (0 : Fin 2) * x (0 : Fin 2) + Pulay.bordered (single g p v 0) i (1 : Fin 2) * x (1 : Fin 2) := by
    intro i
    show ∑ k : Fin 2, Pulay.bordered (single g p v 0) i k * x k = _
    exact Fin.sum_univ_two _
  have h1 := (e (1 : Fin 2)).symm.trans (congrFun hz (1 : Fin 2))
  have h2 := (e (0 : Fin 2)).symm.trans (congrFun hz (0 : Fin 2))
  have b10 : Pulay.bordered (single g p v 0) (1 : Fin 2) (0 : Fin 2) = 1 := rfl
  have b11 : Pulay.bordered (single g p v 0) (1 : Fin 2) (1 : Fin 2) = 0 := rfl
  have b01 : Pulay.bordered (single g p v 0) (0 : Fin 2) (1 : Fin 2) = 1 := rfl
  rw [b10, b11, one_mul, zero_mul, add_zero] at h1
  rw [b01, h1] at h2
  have h3 : x (1 : Fin 2) = 0 := by
    have h4 : Pulay.bordered (single g p v 0) (0 : Fin 2) (0 : Fin 2) * 0 + 1 * x (1 : Fin 2) = 0 := h2
    linarith
  apply hx
  funext k
  have hk : k = (0 : Fin 2) ∨ k = (1 : Fin 2) := by
    have key : ∀ k : Fin 2, k = 0 ∨ k = 1 := by decide
    exact key k
  rcases hk with rfl | rfl
  · exact h1
  · exact h3

example (v : Var .polarized 2) := C107_stationary exGrid exParams (single exGrid exParams v 0) (single_consistent _ _ (by decide) _ _) (single_zero_det _ _ v) v 0 rfl rfl
  ⟨fun _ _ _ => rfl, fun _ _ _ _ => rfl, fun _ _ => rfl⟩

/-- Exchange of the two spin directions: the magnetization along the axis changes sign, the one along the first axis does not. -/
example : ∃ U ∈ Matrix.unitaryGroup (Fin 2) ℂ, ∃ v v' : Var .noncollinear 0, v ≠ v' ∧
    RotatedVar exGrid U (Pulay.mixed (env exGrid exParams) (single exGrid exParams v v) (Pulay.coeffs (single exGrid exParams v v)))
      (Pulay.mixed (env exGrid exParams) (single exGrid exParams v' v') (Pulay.coeffs (single exGrid exParams v' v'))) := by
  have hU : (!![0, 1; 1, 0] : Matrix (Fin 2) (Fin 2) ℂ) ∈ Matrix.unitaryGroup (Fin 2) ℂ := by
    rw [Matrix.mem_unitaryGroup_iff]
    ext i k
    fin_cases i <;> fin_cases k <;> simp [Matrix.mul_apply, Fin.sum_univ_two, Matrix.star_apply]
  have hr : RotatedVar (nRho := 0) exGrid !![0, 1; 1, 0] (![fun _ => 3, fun _ => 1, fun _ => 2, fun _ => 0], 0, 0) (![fun _ => 3, fun _ => -1, fun _ => 2, fun _ => 0], 0, 0) := by
    refine ⟨fun j _ => ?_, fun j _ => rotated_zero _ j⟩
    show sm _ j = _ * sm _ j * _
    rw [sm_eq, sm_eq]
    ext i k
    fin_cases i <;> fin_cases k <;> simp [Matrix.mul_apply, Fin.sum_univ_two]
    all_goals norm_num
  refine ⟨_, hU, (![fun _ => 3, fun _ => 1, fun _ => 2, fun _ => 0], 0, 0), (![fun _ => 3, fun _ => -1, fun _ => 2, fun _ => 0], 0, 0), ?_, ?_⟩
  · intro h
    have h1 := congrFun (congrFun (congrArg Prod.fst h) 1) 0
    simp at h1
    norm_num at h1
  · refine C107_axes exGrid exParams rfl _ hU _ _ (single_consistent _ _ (by decide) _ _) (single_consistent _ _ (by decide) _ _) rfl ?_ ?_
    · intro i hi
      obtain rfl : i = 0 := by have : i < 1 := hi; omega
      exact hr
    · intro i hi
      obtain rfl : i = 0 := by have : i < 1 := hi; omega
      exact hr

/-- A skewed reciprocal lattice. -/
def skewGrid : Grid := ⟨⟨8, 8, 8⟩, fun i k => if i = 1 ∧ k = 0 then 5 / 2 else if i = 1 ∧ k = 1 then 1 / 10 else if i = k then 1 else 0, 1, 1⟩

/-- **C107 (shortest vector, skewed lattices).** There are lattices with a vector shorter than the one used as the shortest. -/
theorem C107_shortest_fails : GridValid skewGrid ∧ lenSq skewGrid (-2, 1, 0) < gminSq skewGrid := by
  constructor
  · refine ⟨⟨by decide, by decide, by decide⟩, by norm_num [skewGrid], fun x y z h => ?_⟩
    have h0 := h 0
    have h1 := h 1
    have h2 := h 2
    simp [skewGrid] at h0 h1 h2
    subst h1 h2
    simp at h0
    exact ⟨h0, rfl, rfl⟩
  · have e : ∀ x y z : ℤ, lenSq skewGrid (x, y, z) = (x + 5 / 2 * y) ^ 2 + (y / 10) ^ 2 + z ^ 2 := by
      intro x y z
      simp [lenSq, gvec, skewGrid, Fin.sum_univ_three]
      ring
    rcases foldl_min_att nearby (lenSq skewGrid) dblMax with h | ⟨⟨x, y, z⟩, hv, hne, h⟩
    · have h' : gminSq skewGrid = dblMax := h
      rw [h', e]
      unfold dblMax
      have h2 : ((2 : ℝ)⁻¹) ^ 52 ≤ 1 := pow_le_one₀ (by norm_num) (by norm_num)
      have h3 : (1 : ℝ) ≤ 2 ^ 1023 := one_le_pow₀ (by norm_num)
      generalize ((2 : ℝ)⁻¹) ^ 52 = a at h2
      generalize (2 : ℝ) ^ 1023 = b at h3
      norm_num
      nlinarith
    · have h' : gminSq skewGrid = lenSq skewGrid (x, y, z) := h
      rw [h', e, e]
      simp only [nearby, List.mem_flatMap, List.mem_map, List.mem_cons, List.not_mem_nil, or_false, Prod.mk.injEq] at hv
      obtain ⟨x', hx, y', hy, z', hz, rfl, rfl, rfl⟩ := hv
      rcases hx with rfl | rfl | rfl <;> rcases hy with rfl | rfl | rfl <;> rcases hz with rfl | rfl | rfl <;> first | exact absurd rfl hne | norm_num

end
end Jdftx.SCF
