import Verif.Lemmas.Excite
import Mathlib.Algebra.BigOperators.Ring.Finset
import Mathlib.Tactic.FinCases
import Mathlib.Tactic.Ring
import Mathlib.Tactic.Positivity
import Mathlib.Data.List.Sort
import Mathlib.Data.Complex.BigOperators

/-! # C111: the dump of excitations -/
namespace Jdftx.Excite
noncomputable section
open scoped ComplexConjugate

variable {G : Type} [Fintype G] {c : Calc G}

/-- **C111 (processes).** The file does not depend on the number of processes. -/
theorem C111_processes (M : ℝ) (sort : List Exc → List Exc) {P P' : ℕ} (hP : 0 < P) (hP' : 0 < P') : c.dump M sort P = c.dump M sort P' := by
  rw [dump_eq sort hP, dump_eq sort hP']

omit [Fintype G] in
theorem findHOMO_spec (hc : Filled c) {q : ℕ} (hq : q < c.nStates) : Occupied c q (c.findHOMO q) ∧ ∀ b, c.findHOMO q < b → b < c.nBands → Empty c q b := by
  obtain ⟨b, _, hb, hF⟩ := hc.some q hq
  obtain ⟨h1, h2, h3⟩ := homoFrom_spec (F := c.F q) (n := c.nBands) ⟨b, hb, hF⟩
  exact ⟨⟨hq, h1, h2⟩, fun b' h4 h5 => ⟨hq, h5, h3 b' h4 h5⟩⟩

omit [Fintype G] in
theorem occupied_iff (hc : Filled c) {q o : ℕ} (hq : q < c.nStates) : Occupied c q o ↔ o ≤ c.findHOMO q := by
  obtain ⟨h1, h2⟩ := findHOMO_spec hc hq
  constructor
  · rintro ⟨_, ho, hF⟩
    by_contra h
    exact absurd (h2 o (by omega) ho).2.2 (not_le.2 hF)
  · intro h
    exact ⟨hq, lt_of_le_of_lt h h1.2.1, lt_of_lt_of_le h1.2.2 (hc.fill q hq o _ h h1.2.1)⟩

omit [Fintype G] in
theorem empty_iff (hc : Filled c) {q u : ℕ} (hq : q < c.nStates) : Empty c q u ↔ c.findHOMO q < u ∧ u < c.nBands := by
  constructor
  · rintro ⟨_, hu, hF⟩
    refine ⟨?_, hu⟩
    by_contra h
    exact absurd hF (not_le.2 ((occupied_iff hc hq).2 (not_lt.1 h)).2.2)
  · rintro ⟨h1, h2⟩
    exact (findHOMO_spec hc hq).2 u h1 h2

omit [Fintype G] in
theorem short_iff (hc : Filled c) {q : ℕ} (hq : q < c.nStates) : Short c q ↔ ∀ u, ¬ Empty c q u := by
  unfold Short
  constructor
  · intro h u hu
    rw [empty_iff hc hq] at hu
    omega
  · intro h
    by_contra h'
    exact h (c.findHOMO q + 1) ((empty_iff hc hq).2 ⟨by omega, by omega⟩)

/-- **C111 (sufficient bands).** A file is written exactly when each state has an empty band. -/
theorem C111_written (hc : Filled c) (h0 : 0 < c.nStates) (M : ℝ) {sort : List Exc → List Exc} (hs : IsSort sort) {P : ℕ} (hP : 0 < P) :
    ((∃ q < c.nStates, ∀ u, ¬ Empty c q u) ∧ c.dump M sort P = .ok none) ∨ ((∀ q < c.nStates, ∃ u, Empty c q u) ∧ ∃ r, c.dump M sort P = .ok (some r)) := by
  rw [dump_eq sort hP]
  split_ifs with h
  · left
    obtain ⟨q, hq, h⟩ := h
    exact ⟨⟨q, hq, (short_iff hc hq).1 h⟩, rfl⟩
  · right
    have he : ∀ q < c.nStates, ∃ u, Empty c q u := by
      intro q hq
      by_contra h'
      exact h ⟨q, hq, (short_iff hc hq).2 fun u hu => h' ⟨u, hu⟩⟩
    refine ⟨he, ?_⟩
    obtain ⟨u, hu⟩ := he 0 h0
    have hm : c.exc 0 0 u ∈ sort (total c M).excitations := by
      rw [(hs _).1.mem_iff, total_exc, List.mem_flatMap]
      rw [empty_iff hc h0] at hu
      exact ⟨0, List.mem_range.2 h0, mem_pairs.2 ⟨0, u, by omega, hu.1, hu.2, rfl⟩⟩
    unfold report
    cases hl : sort (total c M).excitations with
    | nil => rw [hl] at hm; simp at hm
    | cons a l => exact ⟨_, rfl⟩

theorem dump_some {M : ℝ} {sort : List Exc → List Exc} {P : ℕ} (hP : 0 < P) {r : Report} (h : c.dump M sort P = .ok (some r)) :
    (∀ q < c.nStates, ¬ Short c q) ∧ ∃ rest, sort (total c M).excitations = r.opt :: rest ∧ r.lines = r.opt :: rest ∧ r.maxHOMO = (total c M).maxHOMO ∧ r.minLUMO = (total c M).minLUMO ∧
      r.indirect = (total c M).minLUMO - (total c M).maxHOMO ∧ r.from' = ((total c M).maxHOMOq, (total c M).maxHOMOn) ∧ r.to' = ((total c M).minLUMOq, (total c M).minLUMOn) := by
  rw [dump_eq sort hP] at h
  split_ifs at h with h1
  · simp at h
  · refine ⟨fun q hq hs => h1 ⟨q, hq, hs⟩, ?_⟩
    unfold report at h
    cases hl : sort (total c M).excitations with
    | nil => rw [hl] at h; cases h
    | cons a l =>
      rw [hl] at h
      have h : (Except.ok (some _) : Res (Option Report)) = .ok (some r) := h
      injection h with h
      injection h with h
      subst h
      exact ⟨l, rfl, rfl, rfl, rfl, rfl, rfl, rfl⟩

/-- **C111 (lines).** The file has one line for each pair of an occupied and an empty band of the same state, with the difference of their energies, in ascending order of energy. -/
theorem C111_lines (hc : Filled c) {M : ℝ} {sort : List Exc → List Exc} (hs : IsSort sort) {P : ℕ} (hP : 0 < P) {r : Report} (h : c.dump M sort P = .ok (some r)) :
    (r.lines.map fun x => (x.q, x.o, x.u)).Nodup ∧ (∀ q o u, (q, o, u) ∈ r.lines.map (fun x => (x.q, x.o, x.u)) ↔ Occupied c q o ∧ Empty c q u) ∧
      (∀ x ∈ r.lines, x.dE = c.eig x.q x.u - c.eig x.q x.o) ∧ r.lines.Pairwise fun a b => a.dE ≤ b.dE := by
  obtain ⟨_, rest, h1, h2, _⟩ := dump_some hP h
  rw [h2, ← h1]
  have hp := (hs (total c M).excitations).1
  have hm : ∀ x, x ∈ sort (total c M).excitations ↔ ∃ q < c.nStates, ∃ o u, o ≤ c.findHOMO q ∧ c.findHOMO q < u ∧ u < c.nBands ∧ x = c.exc q o u := by
    intro x
    rw [hp.mem_iff, total_exc, List.mem_flatMap]
    simp only [List.mem_range, mem_pairs]
  refine ⟨?_, ?_, ?_, (hs _).2⟩
  · rw [(hp.map _).nodup_iff]
    exact total_nodup M
  · intro q o u
    rw [List.mem_map]
    constructor
    · rintro ⟨x, hx, hxe⟩
      obtain ⟨q', hq, o', u', h3, h4, h5, rfl⟩ := (hm x).1 hx
      simp only [Calc.exc, Prod.mk.injEq] at hxe
      obtain ⟨rfl, rfl, rfl⟩ := hxe
      exact ⟨(occupied_iff hc hq).2 h3, (empty_iff hc hq).2 ⟨h4, h5⟩⟩
    · rintro ⟨ho, hu⟩
      have hq := ho.1
      rw [occupied_iff hc hq] at ho
      rw [empty_iff hc hq] at hu
      exact ⟨c.exc q o u, (hm _).2 ⟨q, hq, o, u, ho, hu.1, hu.2, rfl⟩, rfl⟩
  · intro x hx
    obtain ⟨q, hq, o, u, _, _, _, rfl⟩ := (hm x).1 hx
    rfl

/-- **C111 (direct gap).** The direct gap is the smallest energy from an occupied to an empty band of the same state, and the bands given for it have it. -/
theorem C111_direct (hc : Filled c) {M : ℝ} {sort : List Exc → List Exc} (hs : IsSort sort) {P : ℕ} (hP : 0 < P) {r : Report} (h : c.dump M sort P = .ok (some r)) :
    Occupied c r.opt.q r.opt.o ∧ Empty c r.opt.q r.opt.u ∧ r.opt.dE = c.eig r.opt.q r.opt.u - c.eig r.opt.q r.opt.o ∧
      ∀ q o u, Occupied c q o → Empty c q u → r.opt.dE ≤ c.eig q u - c.eig q o := by
  obtain ⟨_, h2, h3, h4⟩ := C111_lines hc hs hP h
  obtain ⟨_, rest, _, h6, _⟩ := dump_some hP h
  rw [h6] at h2 h3 h4
  have hm : r.opt ∈ r.opt :: rest := List.mem_cons_self ..
  obtain ⟨g1, g2⟩ := (h2 r.opt.q r.opt.o r.opt.u).1 (List.mem_map.2 ⟨_, hm, rfl⟩)
  refine ⟨g1, g2, h3 _ hm, fun q o u ho hu => ?_⟩
  obtain ⟨x, hx, hxe⟩ := List.mem_map.1 ((h2 q o u).2 ⟨ho, hu⟩)
  simp only [Prod.mk.injEq] at hxe
  obtain ⟨rfl, rfl, rfl⟩ := hxe
  rw [← h3 x hx]
  rcases List.mem_cons.1 hx with rfl | hx
  · exact le_refl _
  · exact (List.pairwise_cons.1 h4).1 x hx

/-- **C111 (band edges).** The highest occupied and lowest empty energies are those of all states, the bands given for them have these energies, and the indirect gap is their difference, which is not larger than the
direct one. -/
theorem C111_edges (hc : Filled c) (h0 : 0 < c.nStates) {M : ℝ} (hM : ∀ q b, q < c.nStates → b < c.nBands → |c.eig q b| < M) {sort : List Exc → List Exc} (hs : IsSort sort) {P : ℕ} (hP : 0 < P)
    {r : Report} (h : c.dump M sort P = .ok (some r)) :
    (Occupied c r.from'.1 r.from'.2 ∧ r.maxHOMO = c.eig r.from'.1 r.from'.2 ∧ ∀ q b, Occupied c q b → c.eig q b ≤ r.maxHOMO) ∧
      (Empty c r.to'.1 r.to'.2 ∧ r.minLUMO = c.eig r.to'.1 r.to'.2 ∧ ∀ q b, Empty c q b → r.minLUMO ≤ c.eig q b) ∧
      r.indirect = r.minLUMO - r.maxHOMO ∧ r.indirect ≤ r.opt.dE := by
  obtain ⟨hsh, rest, _, _, h3, h4, h5, h6, h7⟩ := dump_some hP h
  have hH : ∀ q < c.nStates, c.findHOMO q + 1 < c.nBands := fun q hq => not_le.1 (hsh q hq)
  obtain ⟨a1, a2, a3, a4⟩ := total_homo (M := M) h0 fun q hq => (abs_lt.1 (hM q _ hq (by have := hH q hq; omega))).1
  obtain ⟨b1, b2, b3, b4⟩ := total_lumo (M := M) h0 fun q hq => (abs_lt.1 (hM q _ hq (hH q hq))).2
  rw [h3, h4, h5, h6, h7]
  have c1 : ∀ q b, Occupied c q b → c.eig q b ≤ (total c M).maxHOMO := by
    intro q b hb
    have hq := hb.1
    exact le_trans (hc.eig q hq b _ ((occupied_iff hc hq).1 hb) (by have := hH q hq; omega)) (a4 q hq)
  have c2 : ∀ q b, Empty c q b → (total c M).minLUMO ≤ c.eig q b := by
    intro q b hb
    have hq := hb.1
    have := (empty_iff hc hq).1 hb
    exact le_trans (b4 q hq) (hc.eig q hq _ b (by omega) this.2)
  refine ⟨⟨?_, a3, c1⟩, ⟨?_, b3, c2⟩, rfl, ?_⟩
  · show Occupied c (total c M).maxHOMOq (total c M).maxHOMOn
    rw [a2]
    exact (occupied_iff hc a1).2 (le_refl _)
  · show Empty c (total c M).minLUMOq (total c M).minLUMOn
    rw [b2]
    exact (empty_iff hc b1).2 ⟨by omega, hH _ b1⟩
  · obtain ⟨d1, d2, d3, _⟩ := C111_direct hc hs hP h
    rw [d3]
    linarith [c1 _ _ d1, c2 _ _ d2]

/-- **C111 (strengths).** The strength of a line is the sum of those of the real and imaginary parts. -/
theorem C111_strength (q o u : ℕ) : (c.exc q o u).dnorm = (c.exc q o u).dreal + (c.exc q o u).dimag := by
  unfold Calc.exc
  simp only
  rw [← Finset.sum_add_distrib]
  refine Finset.sum_congr rfl fun i _ => ?_
  rw [← Complex.normSq_eq_norm_sq, Complex.normSq_apply]
  ring

/-- **C111 (dipoles; partial).** For wavefunctions with one component that are real up to a factor for each band, the strength is that of the dipole ⟨u|r|o⟩. Missing: other wavefunctions, for which it is not (see
`C111_complex_fails` and `C111_spinor_fails`). -/
theorem C111_dipole_partial {q o u : ℕ} {f : ℕ → G → ℝ} {a : ℕ → ℂ} (hpsi : ∀ b g, c.psi q b 0 g = a b * (f b g : ℂ)) :
    (c.exc q o u).dnorm = ∑ i, ‖dipole c 1 q o u i‖ ^ 2 := by
  unfold Calc.exc
  simp only
  refine Finset.sum_congr rfl fun i _ => ?_
  congr 1
  have e1 : c.xi q o u i = a u * a o * ((c.dV * ∑ g, f u g * c.r i g * f o g : ℝ) : ℂ) := by
    unfold Calc.xi
    rw [Complex.ofReal_mul, Complex.ofReal_sum, Finset.mul_sum, Finset.mul_sum, Finset.mul_sum]
    refine Finset.sum_congr rfl fun g _ => ?_
    rw [hpsi, hpsi]
    push_cast
    ring
  have e2 : dipole c 1 q o u i = conj (a u) * a o * ((c.dV * ∑ g, f u g * c.r i g * f o g : ℝ) : ℂ) := by
    unfold dipole
    rw [Finset.sum_range_one]
    rw [Complex.ofReal_mul, Complex.ofReal_sum, Finset.mul_sum, Finset.mul_sum, Finset.mul_sum]
    refine Finset.sum_congr rfl fun g _ => ?_
    rw [hpsi, hpsi, map_mul, Complex.conj_ofReal]
    push_cast
    ring
  rw [e1, e2, Complex.norm_mul, Complex.norm_mul, Complex.norm_mul, Complex.norm_mul, Complex.norm_conj]

/-! ## Where the property fails -/

/-- A hydrogen atom with spin: the second state (spin down) has no occupied band. -/
def hydrogen : Calc (Fin 2) where
  nStates := 2
  nBands := 2
  F := fun q b => if q = 0 ∧ b = 0 then 1 else 0
  eig := fun q b => if q = 0 then (if b = 0 then -3 else 1) else (if b = 0 then -1 else 2)
  psi := fun _ b _ g => if g.1 = b then 1 else 0
  r := fun _ g => (g.1 : ℝ)
  dV := 1

theorem hydrogen_homo : hydrogen.findHOMO 0 = 0 ∧ hydrogen.findHOMO 1 = 0 := by
  constructor <;> norm_num [Calc.findHOMO, hydrogen, homoFrom]

/-- **C111 fails** for states without occupied bands: their lowest band is taken as occupied. For a hydrogen atom the file gives an empty band of the other spin as the highest occupied one, and a gap that is too large. -/
theorem C111_empty_fails {sort : List Exc → List Exc} (hs : IsSort sort) {P : ℕ} (hP : 0 < P) :
    ∃ r, hydrogen.dump 1000 sort P = .ok (some r) ∧ r.from' = (1, 0) ∧ Empty hydrogen 1 0 ∧ r.maxHOMO = -1 ∧ r.minLUMO = 1 ∧
      (∀ q b, Occupied hydrogen q b → hydrogen.eig q b = -3) ∧ hydrogen.eig 1 0 = -1 := by
  obtain ⟨hh0, hh1⟩ := hydrogen_homo
  have ht : total hydrogen 1000 = { maxHOMO := -1, maxHOMOq := 1, maxHOMOn := 0, minLUMO := 1, minLUMOq := 0, minLUMOn := 1, excitations := [hydrogen.exc 0 0 1, hydrogen.exc 1 0 1] } := by
    have p0 : hydrogen.pairs 0 = [hydrogen.exc 0 0 1] := by
      unfold Calc.pairs
      rw [hh0]
      rfl
    have p1 : hydrogen.pairs 1 = [hydrogen.exc 1 0 1] := by
      unfold Calc.pairs
      rw [hh1]
      rfl
    have : (List.range hydrogen.nStates) = [0, 1] := rfl
    unfold total
    rw [this, List.foldl_cons, List.foldl_cons, List.foldl_nil]
    unfold Calc.state
    rw [hh0, hh1, p0, p1]
    norm_num [Loc.homo, Loc.lumo, Loc.start, hydrogen]
  rw [dump_eq sort hP, if_neg]
  · have hp := hs (total hydrogen 1000).excitations
    unfold report
    cases hl : sort (total hydrogen 1000).excitations with
    | nil =>
      rw [hl, ht] at hp
      have := hp.1.length_eq
      simp at this
    | cons a l =>
      refine ⟨_, rfl, ?_, ?_, ?_, ?_, ?_, ?_⟩
      · simp only [ht]
      · norm_num [Empty, hydrogen]
      · simp only [ht]
      · simp only [ht]
      · rintro q b ⟨hq, hb, hF⟩
        simp only [hydrogen] at hF ⊢
        split_ifs at hF with h
        · simp [h]
        · norm_num at hF
      · norm_num [hydrogen]
  · rintro ⟨q, hq, h⟩
    have hq : q < 2 := hq
    unfold Short at h
    have : q = 0 ∨ q = 1 := by omega
    rcases this with rfl | rfl
    · rw [hh0] at h
      have : hydrogen.nBands = 2 := rfl
      omega
    · rw [hh1] at h
      have : hydrogen.nBands = 2 := rfl
      omega

/-- Two complex bands. -/
def waves : Calc (Fin 4) where
  nStates := 1
  nBands := 2
  F := fun _ b => if b = 0 then 1 else 0
  eig := fun _ b => b
  psi := fun _ b _ g => if b = 0 then (match g with | 0 => 1 | 1 => Complex.I | 2 => 0 | 3 => 0) else (match g with | 0 => 1 | 1 => -Complex.I | 2 => 0 | 3 => 0)
  r := fun i g => if i = 0 then (match g with | 0 => 1 | 1 => -1 | 2 => 0 | 3 => 0) else 0
  dV := 1

/-- **C111 fails** for complex wavefunctions: the wavefunction of the empty band is not conjugated, and two orthogonal bands with a dipole have strength zero in the file. -/
theorem C111_complex_fails : (∑ g, conj (waves.psi 0 1 0 g) * waves.psi 0 0 0 g = 0) ∧ (waves.exc 0 0 1).dnorm = 0 ∧ ∑ i, ‖dipole waves 1 0 0 1 i‖ ^ 2 = 4 := by
  refine ⟨?_, ?_, ?_⟩
  · simp [waves, Fin.sum_univ_four]
  · simp [Calc.exc, Calc.xi, waves, Fin.sum_univ_four, Fin.sum_univ_three]
  · simp [dipole, waves, Fin.sum_univ_four, Fin.sum_univ_three]
    norm_num

/-- Two bands with both spinor components, which have a dipole only in the second. -/
def spinor : Calc (Fin 2) where
  nStates := 1
  nBands := 2
  F := fun _ b => if b = 0 then 1 else 0
  eig := fun _ b => b
  psi := fun _ b s g => if s = 0 then 0 else (if b = 0 then 1 else (if g = 0 then 1 else -1))
  r := fun i g => if i = 0 then (if g = 0 then 1 else -1) else 0
  dV := 1

/-- **C111 fails** for spinors: only the first component is used. -/
theorem C111_spinor_fails : (∑ s ∈ Finset.range 2, ∑ g, conj (spinor.psi 0 1 s g) * spinor.psi 0 0 s g = 0) ∧ (spinor.exc 0 0 1).dnorm = 0 ∧ ∑ i, ‖dipole spinor 2 0 0 1 i‖ ^ 2 = 4 := by
  refine ⟨?_, ?_, ?_⟩
  · simp [spinor, Finset.sum_range_succ]
  · simp [Calc.exc, Calc.xi, spinor]
  · simp [dipole, spinor, Finset.sum_range_succ, Fin.sum_univ_three]
    norm_num

/-! ## Instances of the hypotheses -/

open Classical in
/-- A sort by energy. -/
def someSort (l : List Exc) : List Exc := l.mergeSort fun a b => decide (a.dE ≤ b.dE)

theorem someSort_ok : IsSort someSort := by
  intro l
  refine ⟨List.mergeSort_perm _ _, ?_⟩
  have := List.pairwise_mergeSort (le := fun a b : Exc => decide (a.dE ≤ b.dE)) (by intro a b c; simp only [decide_eq_true_eq]; exact le_trans) (by intro a b; simp only [Bool.or_eq_true, decide_eq_true_eq]; exact le_total _ _) l
  refine this.imp ?_
  intro a b h
  simpa using h

/-- Two states with three bands, one or two of them filled. -/
def two : Calc (Fin 2) where
  nStates := 2
  nBands := 3
  F := fun q b => if b ≤ q then 1 else 0
  eig := fun q b => (b : ℝ) + q / 2
  psi := fun _ b _ g => if g.1 = b then 1 else 0
  r := fun _ g => (g.1 : ℝ)
  dV := 1

theorem two_filled : Filled two := by
  refine ⟨fun q _ a b hab _ => ?_, fun q _ a b hab _ => ?_, fun q hq => ⟨0, hq, by norm_num [two], by norm_num [two]⟩⟩
  · simp only [two]
    have : (a : ℝ) ≤ b := by exact_mod_cast hab
    linarith
  · simp only [two]
    split_ifs <;> first | omega | norm_num

/-- On three processes, one of which has no state, a file is written, and the theorems apply to it. -/
example : ∃ r, two.dump 1000 someSort 3 = .ok (some r) ∧ r.opt.dE ≤ 1 ∧ r.indirect ≤ r.opt.dE ∧ r.maxHOMO = 3 / 2 ∧ r.minLUMO = 1 := by
  have hM : ∀ q b, q < two.nStates → b < two.nBands → |two.eig q b| < 1000 := by
    intro q b hq hb
    have h1 : (q : ℝ) < 2 := by exact_mod_cast hq
    have h2 : (b : ℝ) < 3 := by exact_mod_cast hb
    simp only [two]
    rw [abs_of_nonneg (by positivity)]
    linarith
  rcases C111_written two_filled (by norm_num [two]) 1000 someSort_ok (P := 3) (by norm_num) with ⟨⟨q, hq, h⟩, _⟩ | ⟨_, r, h⟩
  · exact absurd ⟨hq, by norm_num [two], by have : q < 2 := hq; simp only [two]; split_ifs <;> first | omega | norm_num⟩ (h 2)
  · obtain ⟨⟨e1, e2, e3⟩, ⟨e4, e5, e6⟩, e7, e8⟩ := C111_edges two_filled (by norm_num [two]) hM someSort_ok (by norm_num) h
    obtain ⟨_, _, _, d⟩ := C111_direct two_filled someSort_ok (by norm_num) h
    refine ⟨r, h, ?_, e8, ?_, ?_⟩
    · have := d 0 0 1 ⟨by norm_num [two], by norm_num [two], by norm_num [two]⟩ ⟨by norm_num [two], by norm_num [two], by norm_num [two]⟩
      norm_num [two] at this
      exact this
    · apply le_antisymm
      · rw [e2]
        obtain ⟨f1, f2, f3⟩ := e1
        have f1 : r.from'.1 < 2 := f1
        have : r.from'.2 ≤ r.from'.1 := by
          by_contra hn
          simp only [two, if_neg hn] at f3
          norm_num at f3
        simp only [two]
        have g1 : (r.from'.1 : ℝ) ≤ 1 := by exact_mod_cast (by omega : r.from'.1 ≤ 1)
        have g2 : (r.from'.2 : ℝ) ≤ 1 := by exact_mod_cast (by omega : r.from'.2 ≤ 1)
        linarith
      · have := e3 1 1 ⟨by norm_num [two], by norm_num [two], by norm_num [two]⟩
        norm_num [two] at this
        linarith
    · apply le_antisymm
      · have := e6 0 1 ⟨by norm_num [two], by norm_num [two], by norm_num [two]⟩
        norm_num [two] at this
        linarith
      · rw [e5]
        obtain ⟨f1, f2, f3⟩ := e4
        have : r.to'.1 < r.to'.2 := by
          by_contra hn
          simp only [two, if_pos (not_lt.1 hn)] at f3
          norm_num at f3
        simp only [two]
        have g1 : (1 : ℝ) ≤ r.to'.2 := by exact_mod_cast (by omega : 1 ≤ r.to'.2)
        have g2 : (0 : ℝ) ≤ r.to'.1 := by positivity
        linarith

/-- Its wavefunctions are real. -/
example : (two.exc 0 0 1).dnorm = ∑ i, ‖dipole two 1 0 0 1 i‖ ^ 2 :=
  C111_dipole_partial (f := fun b g => if g.1 = b then 1 else 0) (a := fun _ => 1) fun b g => by
    simp only [two, one_mul]
    split_ifs <;> simp

/-- A state of which all bands are filled: nothing is written. -/
example : Filled ({ two with nBands := 1 } : Calc (Fin 2)) ∧ ({ two with nBands := 1 } : Calc (Fin 2)).dump 1000 someSort 2 = .ok none := by
  have hf : Filled ({ two with nBands := 1 } : Calc (Fin 2)) := by
    refine ⟨fun q hq a b hab hb => two_filled.eig q hq a b hab (lt_trans hb (by norm_num [two])), fun q hq a b hab hb => two_filled.fill q hq a b hab (lt_trans hb (by norm_num [two])),
      fun q hq => ⟨0, hq, by norm_num, by norm_num [two]⟩⟩
  refine ⟨hf, ?_⟩
  rcases C111_written hf (by norm_num [two]) 1000 someSort_ok (P := 2) (by norm_num) with ⟨_, h⟩ | ⟨h, _⟩
  · exact h
  · obtain ⟨u, _, h2, h3⟩ := h 0 (by norm_num [two])
    have h2 : u < 1 := h2
    have : u = 0 := by omega
    subst this
    norm_num [two] at h3

end
end Jdftx.Excite
