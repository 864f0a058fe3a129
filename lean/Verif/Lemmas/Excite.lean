import Verif.Spec.Excite
import Verif.Lemmas.TaskDivision
import Verif.Lemmas.Res
import Mathlib.Tactic.Linarith
import Mathlib.Tactic.NormNum

/-! # Lemmas for the dump of excitations -/
namespace Jdftx.Excite
noncomputable section

variable {G : Type} [Fintype G] {c : Calc G}

theorem homoFrom_spec {F : ℕ → ℝ} {n : ℕ} (h : ∃ b < n, 1 / 2 < F b) : homoFrom F n < n ∧ 1 / 2 < F (homoFrom F n) ∧ ∀ b, homoFrom F n < b → b < n → F b ≤ 1 / 2 := by
  induction n with
  | zero => obtain ⟨b, hb, _⟩ := h; omega
  | succ n ih =>
    unfold homoFrom
    split_ifs with hn
    · exact ⟨by omega, by norm_num at hn ⊢; linarith, fun b h1 h2 => by omega⟩
    · have hn' : F n ≤ 1 / 2 := by norm_num at hn ⊢; linarith
      obtain ⟨b, hb, hF⟩ := h
      have hbn : b ≠ n := by rintro rfl; linarith
      obtain ⟨h1, h2, h3⟩ := ih ⟨b, by omega, hF⟩
      refine ⟨by omega, h2, fun b' h4 h5 => ?_⟩
      rcases Nat.lt_succ_iff_lt_or_eq.1 h5 with h | rfl
      · exact h3 b' h4 h
      · exact hn'

theorem homoFrom_none {F : ℕ → ℝ} {n : ℕ} (h : ∀ b < n, F b ≤ 1 / 2) : homoFrom F n = 0 := by
  induction n with
  | zero => rfl
  | succ n ih =>
    unfold homoFrom
    rw [if_neg (by have := h n (by omega); norm_num at this ⊢; linarith)]
    exact ih fun b hb => h b (by omega)

/-- The head process with what another one has found. -/
def merge (l x : Loc) : Loc :=
  let l := (l.homo x.maxHOMO x.maxHOMOq x.maxHOMOn).lumo x.minLUMO x.minLUMOq x.minLUMOn
  { l with excitations := l.excitations ++ x.excitations }

theorem unpack_flat (l : List Exc) : unpackExc l.length (l.flatMap fun e => [e.q, e.o, e.u]) (l.flatMap fun e => [e.dE, e.dreal, e.dimag, e.dnorm]) = .ok l := by
  induction l with
  | nil => rfl
  | cons e l ih =>
    simp only [List.flatMap_cons, List.length_cons]
    show (do let l ← unpackExc l.length (l.flatMap fun e => [e.q, e.o, e.u]) (l.flatMap fun e => [e.dE, e.dreal, e.dimag, e.dnorm]); .ok (_ :: l) : Res (List Exc)) = _
    rw [ih]
    rfl

theorem receive_pack (l x : Loc) : receive l (pack x) = .ok (merge l x) := by
  unfold receive pack
  have h1 : ∀ l : List Exc, (l.flatMap fun e => [e.q, e.o, e.u]).length = l.length * 3 := by
    intro l; induction l with
    | nil => rfl
    | cons e l ih => simp only [List.flatMap_cons, List.length_append, ih, List.length_cons, List.length_nil]; omega
  have h2 : ∀ l : List Exc, (l.flatMap fun e => [e.dE, e.dreal, e.dimag, e.dnorm]).length = l.length * 4 := by
    intro l; induction l with
    | nil => rfl
    | cons e l ih => simp only [List.flatMap_cons, List.length_append, ih, List.length_cons, List.length_nil]; omega
  rw [if_neg (by simp only [List.length_append, h1, h2, List.length_cons, List.length_nil]; omega)]
  simp only [List.cons_append, List.nil_append]
  rw [unpack_flat]
  rfl

theorem gather_eq (xs : List Loc) : ∀ l, gather l xs = .ok (xs.foldl merge l) := by
  induction xs with
  | nil => intro l; rfl
  | cons x xs ih =>
    intro l
    show (do let l ← receive l (pack x); gather l xs : Res Loc) = _
    rw [receive_pack]
    exact ih _

/-- A state for which there are not enough bands. -/
def Short (c : Calc G) (q : ℕ) : Prop := c.nBands ≤ c.findHOMO q + 1

theorem scan_true (qs : List ℕ) : ∀ l, (c.scan l qs).2 = true ↔ ∃ q ∈ qs, Short c q := by
  induction qs with
  | nil => intro l; simp [Calc.scan]
  | cons q qs ih =>
    intro l
    unfold Calc.scan
    split_ifs with h
    · simp only [true_iff]
      exact ⟨q, List.mem_cons_self .., h⟩
    · rw [ih]
      simp only [List.mem_cons, exists_eq_or_imp]
      exact ⟨fun h' => Or.inr h', fun h' => h'.resolve_left h⟩

theorem scan_false (qs : List ℕ) (h : ∀ q ∈ qs, ¬ Short c q) : ∀ l, c.scan l qs = (qs.foldl c.state l, false) := by
  induction qs with
  | nil => intro l; rfl
  | cons q qs ih =>
    intro l
    unfold Calc.scan
    rw [if_neg (show ¬ (c.findHOMO q + 1 ≥ c.nBands) from h q (List.mem_cons_self ..)), ih fun q hq => h q (List.mem_cons_of_mem _ hq)]
    rfl

theorem merge_start {M : ℝ} {l : Loc} (h1 : -M ≤ l.maxHOMO) (h2 : l.minLUMO ≤ M) : merge l (Loc.start M) = l := by
  unfold merge Loc.homo Loc.lumo Loc.start
  simp only
  rw [if_neg (not_lt.2 h1), if_neg (not_lt.2 h2)]
  simp

theorem homo_homo (l x : Loc) (e : ℝ) (q n : ℕ) : (l.homo (x.homo e q n).maxHOMO (x.homo e q n).maxHOMOq (x.homo e q n).maxHOMOn) = (l.homo x.maxHOMO x.maxHOMOq x.maxHOMOn).homo e q n := by
  unfold Loc.homo
  by_cases h1 : e > x.maxHOMO <;> by_cases h2 : x.maxHOMO > l.maxHOMO <;> by_cases h3 : e > l.maxHOMO <;> simp only [h1, h2, h3, if_true, if_false] <;> first | rfl | (exfalso; linarith)

theorem lumo_lumo (l x : Loc) (e : ℝ) (q n : ℕ) : (l.lumo (x.lumo e q n).minLUMO (x.lumo e q n).minLUMOq (x.lumo e q n).minLUMOn) = (l.lumo x.minLUMO x.minLUMOq x.minLUMOn).lumo e q n := by
  unfold Loc.lumo
  by_cases h1 : e < x.minLUMO <;> by_cases h2 : x.minLUMO < l.minLUMO <;> by_cases h3 : e < l.minLUMO <;> simp only [h1, h2, h3, if_true, if_false] <;> first | rfl | (exfalso; linarith)

theorem lumo_homo (l : Loc) (e e' : ℝ) (q n q' n' : ℕ) : (l.lumo e q n).homo e' q' n' = (l.homo e' q' n').lumo e q n := by
  unfold Loc.lumo Loc.homo
  by_cases h1 : e < l.minLUMO <;> by_cases h2 : e' > l.maxHOMO <;> simp [h1, h2]

theorem homo_lumo_fields (l : Loc) (e : ℝ) (q n : ℕ) : (l.homo e q n).minLUMO = l.minLUMO ∧ (l.homo e q n).minLUMOq = l.minLUMOq ∧ (l.homo e q n).minLUMOn = l.minLUMOn ∧ (l.homo e q n).excitations = l.excitations := by
  unfold Loc.homo
  split_ifs <;> simp

theorem lumo_homo_fields (l : Loc) (e : ℝ) (q n : ℕ) : (l.lumo e q n).maxHOMO = l.maxHOMO ∧ (l.lumo e q n).maxHOMOq = l.maxHOMOq ∧ (l.lumo e q n).maxHOMOn = l.maxHOMOn ∧ (l.lumo e q n).excitations = l.excitations := by
  unfold Loc.lumo
  split_ifs <;> simp

theorem homo_exc (l : Loc) (x : List Exc) (e : ℝ) (q n : ℕ) : ({ l with excitations := x } : Loc).homo e q n = { l.homo e q n with excitations := x } := by
  unfold Loc.homo
  split_ifs <;> simp

theorem lumo_exc (l : Loc) (x : List Exc) (e : ℝ) (q n : ℕ) : ({ l with excitations := x } : Loc).lumo e q n = { l.lumo e q n with excitations := x } := by
  unfold Loc.lumo
  split_ifs <;> simp

/-- `Calc.state` with its energies as arguments. -/
def step (l : Loc) (e e' : ℝ) (q H : ℕ) (P : List Exc) : Loc :=
  { (l.homo e q H).lumo e' q (H + 1) with excitations := ((l.homo e q H).lumo e' q (H + 1)).excitations ++ P }

theorem merge_step (l x : Loc) (e e' : ℝ) (q H : ℕ) (P : List Exc) : merge l (step x e e' q H P) = step (merge l x) e e' q H P := by
  unfold merge step Loc.homo Loc.lumo
  have key : (e > x.maxHOMO ∧ x.maxHOMO > l.maxHOMO ∧ e > l.maxHOMO) ∨ (e > x.maxHOMO ∧ ¬ x.maxHOMO > l.maxHOMO ∧ e > l.maxHOMO) ∨ (e > x.maxHOMO ∧ ¬ x.maxHOMO > l.maxHOMO ∧ ¬ e > l.maxHOMO) ∨
      (¬ e > x.maxHOMO ∧ x.maxHOMO > l.maxHOMO) ∨ (¬ e > x.maxHOMO ∧ ¬ x.maxHOMO > l.maxHOMO ∧ ¬ e > l.maxHOMO) := by
    by_cases h1 : e > x.maxHOMO <;> by_cases h2 : x.maxHOMO > l.maxHOMO <;> by_cases h3 : e > l.maxHOMO <;> simp [h1, h2, h3] <;> linarith
  have key' : (e' < x.minLUMO ∧ x.minLUMO < l.minLUMO ∧ e' < l.minLUMO) ∨ (e' < x.minLUMO ∧ ¬ x.minLUMO < l.minLUMO ∧ e' < l.minLUMO) ∨ (e' < x.minLUMO ∧ ¬ x.minLUMO < l.minLUMO ∧ ¬ e' < l.minLUMO) ∨
      (¬ e' < x.minLUMO ∧ x.minLUMO < l.minLUMO) ∨ (¬ e' < x.minLUMO ∧ ¬ x.minLUMO < l.minLUMO ∧ ¬ e' < l.minLUMO) := by
    by_cases h1 : e' < x.minLUMO <;> by_cases h2 : x.minLUMO < l.minLUMO <;> by_cases h3 : e' < l.minLUMO <;> simp [h1, h2, h3] <;> linarith
  rcases key with h | h | h | h | h <;> rcases key' with h' | h' | h' | h' | h' <;> simp [h, h']

theorem merge_state (l x : Loc) (q : ℕ) : merge l (c.state x q) = c.state (merge l x) q := merge_step l x _ _ q _ _

theorem state_bounds {M : ℝ} (qs : List ℕ) : ∀ l : Loc, -M ≤ l.maxHOMO → l.minLUMO ≤ M → -M ≤ (qs.foldl c.state l).maxHOMO ∧ (qs.foldl c.state l).minLUMO ≤ M := by
  induction qs with
  | nil => intro l h1 h2; exact ⟨h1, h2⟩
  | cons q qs ih =>
    intro l h1 h2
    have g1 : l.maxHOMO ≤ (c.state l q).maxHOMO := by
      show _ ≤ ((l.homo _ _ _).lumo _ _ _).maxHOMO
      rw [(lumo_homo_fields _ _ _ _).1]
      unfold Loc.homo
      split_ifs with h
      · exact le_of_lt h
      · exact le_refl _
    have g2 : (c.state l q).minLUMO ≤ l.minLUMO := by
      show ((l.homo _ _ _).lumo _ _ _).minLUMO ≤ _
      rw [← lumo_homo, (homo_lumo_fields _ _ _ _).1]
      unfold Loc.lumo
      split_ifs with h
      · exact le_of_lt h
      · exact le_refl _
    exact ih _ (le_trans h1 g1) (le_trans g2 h2)

theorem merge_fold {M : ℝ} (qs : List ℕ) {l : Loc} (h1 : -M ≤ l.maxHOMO) (h2 : l.minLUMO ≤ M) : merge l (qs.foldl c.state (Loc.start M)) = qs.foldl c.state l := by
  induction qs using List.reverseRecOn with
  | nil => exact merge_start h1 h2
  | append_singleton qs q ih => rw [List.foldl_append, List.foldl_append, List.foldl_cons, List.foldl_nil, merge_state, ih, List.foldl_cons, List.foldl_nil]

theorem merge_folds {M : ℝ} (qss : List (List ℕ)) : ∀ {l : Loc}, -M ≤ l.maxHOMO → l.minLUMO ≤ M → (qss.map fun qs => qs.foldl c.state (Loc.start M)).foldl merge l = qss.flatten.foldl c.state l := by
  induction qss with
  | nil => intro l _ _; rfl
  | cons qs qss ih =>
    intro l h1 h2
    rw [List.map_cons, List.foldl_cons, merge_fold qs h1 h2, List.flatten_cons, List.foldl_append]
    obtain ⟨h3, h4⟩ := state_bounds (c := c) qs l h1 h2
    exact ih h3 h4

/-- What all states together give. -/
def total (c : Calc G) (M : ℝ) : Loc := (List.range c.nStates).foldl c.state (Loc.start M)

theorem process_eq {M : ℝ} {P p : ℕ} (h : p < P) : c.process M P p = c.scan (Loc.start M) (Spec.interval ((p * c.nStates) / P) (((p + 1) * c.nStates) / P)) := by
  unfold Calc.process
  rw [TaskDiv.init_eq _ _ _ h]
  rfl

theorem ranges_eq (N P : ℕ) (hP : 0 < P) : ((List.range P).map fun p => Spec.interval ((p * N) / P) (((p + 1) * N) / P)).flatten = List.range N := by
  have h := TaskDiv.cover_of_mono (fun i => (i * N) / P) (by simp) (fun i => TaskDiv.div_mono _ P i) P
  simp only [Nat.mul_div_cancel_left _ hP] at h
  rw [← h, List.flatMap_map]
  rfl

open Classical in
/-- The file does not depend on the number of processes. -/
theorem dump_eq {M : ℝ} (sort : List Exc → List Exc) {P : ℕ} (hP : 0 < P) :
    c.dump M sort P = if ∃ q < c.nStates, Short c q then .ok none else (do let r ← report sort (total c M); .ok (some r)) := by
  have hr := ranges_eq c.nStates P hP
  have hmap : (List.range P).map (c.process M P) = ((List.range P).map fun p => Spec.interval ((p * c.nStates) / P) (((p + 1) * c.nStates) / P)).map (c.scan (Loc.start M)) := by
    rw [List.map_map]
    exact List.map_congr_left fun p hp => process_eq (List.mem_range.1 hp)
  unfold Calc.dump
  have hl' : ((List.range P).map fun p => Spec.interval ((p * c.nStates) / P) (((p + 1) * c.nStates) / P)).length = P := by rw [List.length_map, List.length_range]
  rw [hmap]
  generalize (List.range P).map (fun p => Spec.interval ((p * c.nStates) / P) (((p + 1) * c.nStates) / P)) = I at hr hl' ⊢
  have hmem : ∀ q, q < c.nStates ↔ ∃ qs ∈ I, q ∈ qs := by
    intro q
    rw [← List.mem_range, ← hr, List.mem_flatten]
  cases I with
  | nil => simp at hl'; omega
  | cons qs0 qss =>
    simp only [List.map_cons]
    split_ifs with h1 h2 h2
    · rfl
    · exfalso
      apply h2
      rw [← List.map_cons (f := c.scan (Loc.start M)), List.any_map, List.any_eq_true] at h1
      obtain ⟨qs, hqs, h⟩ := h1
      obtain ⟨q, hq, h⟩ := (scan_true qs _).1 h
      exact ⟨q, (hmem q).2 ⟨qs, hqs, hq⟩, h⟩
    · exfalso
      apply h1
      obtain ⟨q, hq, h⟩ := h2
      obtain ⟨qs, hqs, hq⟩ := (hmem q).1 hq
      rw [← List.map_cons (f := c.scan (Loc.start M)), List.any_map, List.any_eq_true]
      exact ⟨qs, hqs, (scan_true qs _).2 ⟨q, hq, h⟩⟩
    · have hs : ∀ qs ∈ qs0 :: qss, ∀ q ∈ qs, ¬ Short c q := fun qs hqs q hq h => h2 ⟨q, (hmem q).2 ⟨qs, hqs, hq⟩, h⟩
      rw [scan_false qs0 (hs qs0 (List.mem_cons_self ..)), gather_eq]
      have e : ((qss.map (c.scan (Loc.start M))).map Prod.fst) = qss.map fun qs => qs.foldl c.state (Loc.start M) := by
        rw [List.map_map]
        refine List.map_congr_left fun qs hqs => ?_
        show (c.scan _ qs).1 = _
        rw [scan_false qs (hs qs (List.mem_cons_of_mem _ hqs))]
      rw [e]
      obtain ⟨b1, b2⟩ := state_bounds (c := c) (M := M) qs0 (Loc.start M) (le_refl _) (le_refl _)
      rw [merge_folds qss b1 b2, ← List.foldl_append, ← List.flatten_cons, hr]
      rfl

/-! ## All states -/

theorem total_exc (M : ℝ) : (total c M).excitations = (List.range c.nStates).flatMap c.pairs := by
  have : ∀ qs : List ℕ, ∀ l : Loc, (qs.foldl c.state l).excitations = l.excitations ++ qs.flatMap c.pairs := by
    intro qs
    induction qs with
    | nil => intro l; simp
    | cons q qs ih =>
      intro l
      rw [List.foldl_cons, ih, List.flatMap_cons, ← List.append_assoc]
      congr 1
      show ((l.homo _ _ _).lumo _ _ _).excitations ++ _ = _
      rw [(lumo_homo_fields _ _ _ _).2.2.2, (homo_lumo_fields _ _ _ _).2.2.2]
  unfold total
  rw [this]
  rfl

theorem total_homo {M : ℝ} (h0 : 0 < c.nStates) (hM : ∀ q < c.nStates, -M < c.eig q (c.findHOMO q)) :
    (total c M).maxHOMOq < c.nStates ∧ (total c M).maxHOMOn = c.findHOMO (total c M).maxHOMOq ∧ (total c M).maxHOMO = c.eig (total c M).maxHOMOq (total c M).maxHOMOn ∧
      ∀ q < c.nStates, c.eig q (c.findHOMO q) ≤ (total c M).maxHOMO := by
  have : ∀ n, (∀ q < n, -M < c.eig q (c.findHOMO q)) → ∀ l, l = (List.range n).foldl c.state (Loc.start M) → (n = 0 ∧ l.maxHOMO = -M) ∨
      (l.maxHOMOq < n ∧ l.maxHOMOn = c.findHOMO l.maxHOMOq ∧ l.maxHOMO = c.eig l.maxHOMOq l.maxHOMOn ∧ ∀ q < n, c.eig q (c.findHOMO q) ≤ l.maxHOMO) := by
    intro n
    induction n with
    | zero => rintro _ l rfl; left; exact ⟨rfl, rfl⟩
    | succ n ih =>
      intro hM l hl
      right
      rw [List.range_succ, List.foldl_append, List.foldl_cons, List.foldl_nil] at hl
      have ih' := ih (fun q hq => hM q (by omega)) _ rfl
      generalize (List.range n).foldl c.state (Loc.start M) = k at hl ih'
      have hk : l.maxHOMO = (k.homo (c.eig n (c.findHOMO n)) n (c.findHOMO n)).maxHOMO ∧ l.maxHOMOq = (k.homo (c.eig n (c.findHOMO n)) n (c.findHOMO n)).maxHOMOq ∧
          l.maxHOMOn = (k.homo (c.eig n (c.findHOMO n)) n (c.findHOMO n)).maxHOMOn := by
        rw [hl]
        obtain ⟨a, b, d, _⟩ := lumo_homo_fields (k.homo (c.eig n (c.findHOMO n)) n (c.findHOMO n)) (c.eig n (c.findHOMO n + 1)) n (c.findHOMO n + 1)
        exact ⟨a, b, d⟩
      rw [hk.1, hk.2.1, hk.2.2]
      unfold Loc.homo
      split_ifs with hc
      · refine ⟨by simp, rfl, rfl, fun q hq => ?_⟩
        rcases Nat.lt_succ_iff_lt_or_eq.1 hq with h | rfl
        · rcases ih' with ⟨rfl, _⟩ | h'
          · omega
          · exact le_of_lt (lt_of_le_of_lt (h'.2.2.2 q h) hc)
        · exact le_refl _
      · rcases ih' with ⟨rfl, h'⟩ | h'
        · have := hM 0 (by omega)
          rw [h'] at hc
          exact absurd this hc
        · refine ⟨by omega, h'.2.1, h'.2.2.1, fun q hq => ?_⟩
          rcases Nat.lt_succ_iff_lt_or_eq.1 hq with h | rfl
          · exact h'.2.2.2 q h
          · exact not_lt.1 hc
  rcases this c.nStates hM (total c M) rfl with h | h
  · omega
  · exact h

theorem total_lumo {M : ℝ} (h0 : 0 < c.nStates) (hM : ∀ q < c.nStates, c.eig q (c.findHOMO q + 1) < M) :
    (total c M).minLUMOq < c.nStates ∧ (total c M).minLUMOn = c.findHOMO (total c M).minLUMOq + 1 ∧ (total c M).minLUMO = c.eig (total c M).minLUMOq (total c M).minLUMOn ∧
      ∀ q < c.nStates, (total c M).minLUMO ≤ c.eig q (c.findHOMO q + 1) := by
  have : ∀ n, (∀ q < n, c.eig q (c.findHOMO q + 1) < M) → ∀ l, l = (List.range n).foldl c.state (Loc.start M) → (n = 0 ∧ l.minLUMO = M) ∨
      (l.minLUMOq < n ∧ l.minLUMOn = c.findHOMO l.minLUMOq + 1 ∧ l.minLUMO = c.eig l.minLUMOq l.minLUMOn ∧ ∀ q < n, l.minLUMO ≤ c.eig q (c.findHOMO q + 1)) := by
    intro n
    induction n with
    | zero => rintro _ l rfl; left; exact ⟨rfl, rfl⟩
    | succ n ih =>
      intro hM l hl
      right
      rw [List.range_succ, List.foldl_append, List.foldl_cons, List.foldl_nil] at hl
      have ih' := ih (fun q hq => hM q (by omega)) _ rfl
      generalize (List.range n).foldl c.state (Loc.start M) = k at hl ih'
      have hk : l.minLUMO = (k.lumo (c.eig n (c.findHOMO n + 1)) n (c.findHOMO n + 1)).minLUMO ∧ l.minLUMOq = (k.lumo (c.eig n (c.findHOMO n + 1)) n (c.findHOMO n + 1)).minLUMOq ∧
          l.minLUMOn = (k.lumo (c.eig n (c.findHOMO n + 1)) n (c.findHOMO n + 1)).minLUMOn := by
        rw [hl]
        unfold Calc.state
        simp only
        rw [← lumo_homo]
        obtain ⟨a, b, d, _⟩ := homo_lumo_fields (k.lumo (c.eig n (c.findHOMO n + 1)) n (c.findHOMO n + 1)) (c.eig n (c.findHOMO n)) n (c.findHOMO n)
        exact ⟨a, b, d⟩
      rw [hk.1, hk.2.1, hk.2.2]
      unfold Loc.lumo
      split_ifs with hc
      · refine ⟨by simp, rfl, rfl, fun q hq => ?_⟩
        rcases Nat.lt_succ_iff_lt_or_eq.1 hq with h | rfl
        · rcases ih' with ⟨rfl, _⟩ | h'
          · omega
          · exact le_of_lt (lt_of_lt_of_le hc (h'.2.2.2 q h))
        · exact le_refl _
      · rcases ih' with ⟨rfl, h'⟩ | h'
        · have := hM 0 (by omega)
          rw [h'] at hc
          exact absurd this hc
        · refine ⟨by omega, h'.2.1, h'.2.2.1, fun q hq => ?_⟩
          rcases Nat.lt_succ_iff_lt_or_eq.1 hq with h | rfl
          · exact h'.2.2.2 q h
          · exact not_lt.1 hc
  rcases this c.nStates hM (total c M) rfl with h | h
  · omega
  · exact h

theorem mem_pairs {q : ℕ} {x : Exc} : x ∈ c.pairs q ↔ ∃ o u, o ≤ c.findHOMO q ∧ c.findHOMO q < u ∧ u < c.nBands ∧ x = c.exc q o u := by
  unfold Calc.pairs
  simp only [List.mem_flatMap, List.mem_reverse, List.mem_range, List.mem_map, List.mem_range'_1]
  constructor
  · rintro ⟨o, ho, u, hu, rfl⟩
    exact ⟨o, u, by omega, by omega, by omega, rfl⟩
  · rintro ⟨o, u, h1, h2, h3, rfl⟩
    exact ⟨o, by omega, u, by omega, rfl⟩

theorem pairs_nodup (q : ℕ) : ((c.pairs q).map fun x => (x.q, x.o, x.u)).Nodup := by
  unfold Calc.pairs
  rw [List.map_flatMap, List.nodup_flatMap]
  constructor
  · intro o _
    rw [List.map_map]
    refine List.Nodup.map (fun u u' h => ?_) List.nodup_range'
    simpa [Calc.exc] using h
  · rw [List.pairwise_reverse]
    refine (List.nodup_range (n := c.findHOMO q + 1)).imp ?_
    intro a b hab x hx hy
    simp only [List.map_map, List.mem_map, List.mem_range'_1, Function.comp_apply, Calc.exc] at hx hy
    obtain ⟨u, _, rfl⟩ := hx
    obtain ⟨u', _, h⟩ := hy
    simp only [Prod.mk.injEq] at h
    exact hab (by omega)

theorem total_nodup (M : ℝ) : ((total c M).excitations.map fun x => (x.q, x.o, x.u)).Nodup := by
  rw [total_exc, List.map_flatMap, List.nodup_flatMap]
  refine ⟨fun q _ => pairs_nodup q, ?_⟩
  refine (List.nodup_range (n := c.nStates)).imp ?_
  intro a b hab x hx hy
  obtain ⟨y, hy', rfl⟩ := List.mem_map.1 hx
  obtain ⟨z, hz, h⟩ := List.mem_map.1 hy
  obtain ⟨o, u, _, _, _, rfl⟩ := mem_pairs.1 hy'
  obtain ⟨o', u', _, _, _, rfl⟩ := mem_pairs.1 hz
  simp only [Calc.exc, Prod.mk.injEq] at h
  exact hab h.1.symm

end
end Jdftx.Excite
