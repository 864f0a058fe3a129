import Verif.Lemmas.ExactXMesh
import Verif.Props.MatFunc
import Verif.Props.TaskDivision
import Mathlib.Analysis.Matrix.Order

/-!
# C97: exact exchange
-/
namespace Jdftx.EXX
open M3
noncomputable section

/-! ### Division of the bands over processes -/

/-- Every band of every reduced k-point is in exactly one chunk of exactly one process, and no chunk extends outside the bands, for any number of processes and positive costs. -/
theorem C97_partition (jCost : List Nat) (nB nProc : Nat) (hB : 0 < nB) (hn : 0 < nProc) (hp : ∀ c ∈ jCost, 0 < c) :
    (∀ q < jCost.length, ∀ b < nB, ((List.range nProc).flatMap fun j => chunks jCost nB nProc j).countP (fun c => decide (c.has q b)) = 1) ∧
    ∀ j < nProc, ∀ c ∈ chunks jCost nB nProc j, c.iq < jCost.length ∧ c.bStart ≤ c.bStop ∧ c.bStop ≤ nB := by
  refine ⟨fun q hq b hb => ?_, fun j hj c hc => ?_⟩
  · rw [all_count jCost nB nProc hB hn nProc q b hb le_rfl, start_last jCost nB nProc hn hp, if_pos]
    have := mul_cases nB q jCost.length hq
    omega
  · have := chunk_range jCost nB nProc hB hn j hj c hc
    exact ⟨this.1, this.2.2.1, this.2.2.2.1⟩

example : chunks [2, 3, 3] 4 3 1 = [⟨1, 1, 4⟩, ⟨2, 0, 1⟩] := by decide

/-- The cost of a list of chunks. -/
def workOf (jCost : List Nat) (l : List Chunk) : Nat := (l.map fun c => jCost.getD c.iq 0 * (c.bStop - c.bStart)).sum

theorem flat_get (jCost : List Nat) (nB q b : Nat) (hb : b < nB) (h : q * nB + b < (flat jCost nB).length) : (flat jCost nB)[q * nB + b] = jCost.getD q 0 := by
  induction jCost generalizing q with
  | nil => simp [flat] at h
  | cons c l ih =>
    have e : flat (c :: l) nB = List.replicate nB c ++ flat l nB := by simp [flat]
    cases q with
    | zero =>
      simp only [e]
      rw [List.getElem_append_left (by simpa using hb)]
      simp
    | succ q =>
      have hq : (q + 1) * nB + b - nB = q * nB + b := by rw [Nat.add_mul]; omega
      simp only [e]
      rw [List.getElem_append_right (by simp; rw [Nat.add_mul]; omega)]
      simp only [List.length_replicate, hq]
      have h2 : q * nB + b < (flat l nB).length := by
        rw [e, List.length_append, List.length_replicate, Nat.add_mul] at h; omega
      rw [ih q h2]
      simp

/-- Cost up to a band of a k-point. -/
theorem pre_block (jCost : List Nat) (nB q : Nat) (b0 d : Nat) (hb : b0 + d ≤ nB) (hq : q < jCost.length) : pre jCost nB (q * nB + (b0 + d)) = pre jCost nB (q * nB + b0) + jCost.getD q 0 * d := by
  have hm := mul_cases nB q jCost.length hq
  induction d with
  | zero => simp
  | succ d ih =>
    have h1 : q * nB + (b0 + d) < jCost.length * nB := by omega
    have := pre_succ jCost nB (q * nB + (b0 + d)) h1
    rw [show q * nB + (b0 + (d + 1)) = q * nB + (b0 + d) + 1 by omega, this, ih (by omega), flat_get jCost nB q (b0 + d) (by omega)]
    ring

/-- The cost of a process is the cost between its first band and that of the next process. -/
theorem chunks_work (jCost : List Nat) (nB nProc : Nat) (hB : 0 < nB) (hn : 0 < nProc) (j : Nat) (hj : j < nProc) :
    pre jCost nB (startIndex jCost nB nProc j) + workOf jCost (chunks jCost nB nProc j) = pre jCost nB (startIndex jCost nB nProc (j + 1)) := by
  have hs := start_mono jCost nB nProc hn j hj
  have hl := (start_spec jCost nB nProc hn (j + 1) (by omega)).1
  unfold workOf chunks
  simp only []
  generalize startIndex jCost nB nProc j = i0 at *
  generalize startIndex jCost nB nProc (j + 1) = i1 at *
  have d0 := Nat.div_add_mod i0 nB
  have d1 := Nat.div_add_mod i1 nB
  have m0 := Nat.mod_lt i0 hB
  have m1 := Nat.mod_lt i1 hB
  have hq01 : i0 / nB ≤ i1 / nB := Nat.div_le_div_right hs
  rw [Nat.mul_comm] at d0 d1
  generalize hq0 : i0 / nB = q0 at *
  generalize hq1 : i1 / nB = q1 at *
  generalize hr0 : i0 % nB = r0 at *
  generalize hr1 : i1 % nB = r1 at *
  have e0 : i0 - q0 * nB = r0 := by omega
  have e1 : i1 - q1 * nB = r1 := by omega
  rw [e0, e1]
  -- partial sums over complete k-points
  have key : ∀ n, q0 + n ≤ q1 → pre jCost nB i0 + (((List.range n).map fun iLocal => (⟨q0 + iLocal, if q0 + iLocal = q0 then r0 else 0, if q0 + iLocal = q1 then r1 else nB⟩ : Chunk)).map fun c => jCost.getD c.iq 0 * (c.bStop - c.bStart)).sum =
      if n = 0 then pre jCost nB i0 else pre jCost nB ((q0 + n) * nB) := by
    intro n hn'
    induction n with
    | zero => simp
    | succ n ih =>
      rw [List.range_succ, List.map_append, List.map_append, List.sum_append, ← Nat.add_assoc, ih (by omega)]
      simp only [List.map_cons, List.map_nil, List.sum_cons, List.sum_nil, Nat.add_zero]
      rw [if_neg (show ¬ q0 + n = q1 by omega), if_neg (show ¬ n + 1 = 0 by omega)]
      have hql : q0 + n < jCost.length := by
        by_contra hc
        have : jCost.length * nB ≤ (q0 + n) * nB := Nat.mul_le_mul_right _ (by omega)
        have h3 := mul_cases nB (q0 + n) q1 (by omega)
        omega
      have hz : (q0 + (n + 1)) * nB = (q0 + n) * nB + nB := by rw [← Nat.add_assoc, Nat.add_mul, one_mul]
      rw [hz]
      by_cases h0 : n = 0
      · subst h0
        simp only [Nat.add_zero, if_true]
        have := pre_block jCost nB q0 r0 (nB - r0) (by omega) (by simpa using hql)
        rw [show r0 + (nB - r0) = nB by omega, d0] at this
        omega
      · rw [if_neg h0, if_neg (by omega)]
        have := pre_block jCost nB (q0 + n) 0 nB (by omega) hql
        simpa using this.symm
  by_cases hr : r1 = 0
  · simp only [if_pos hr, Nat.add_zero]
    rw [key (q1 - q0) (by omega)]
    split_ifs with h
    · have : q0 = q1 := by omega
      have : i0 = i1 := by subst this; omega
      rw [this]
    · rw [show q0 + (q1 - q0) = q1 by omega, show q1 * nB = i1 by omega]
  · simp only [if_neg hr]
    rw [List.range_succ, List.map_append, List.map_append, List.sum_append, ← Nat.add_assoc, key (q1 - q0) (by omega)]
    simp only [List.map_cons, List.map_nil, List.sum_cons, List.sum_nil, Nat.add_zero]
    have e : q0 + (q1 - q0) = q1 := by omega
    rw [e]
    simp only [if_true]
    have hql : q1 < jCost.length := by
      by_contra hc
      have : jCost.length * nB ≤ q1 * nB := Nat.mul_le_mul_right _ (by omega)
      omega
    by_cases h : q1 - q0 = 0
    · have hqq : q1 = q0 := by omega
      rw [if_pos h, if_pos hqq]
      have := pre_block jCost nB q1 r0 (r1 - r0) (by subst hqq; omega) hql
      rw [show r0 + (r1 - r0) = r1 by subst hqq; omega, d1, hqq, d0] at this
      rw [hqq]
      omega
    · rw [if_neg h, if_neg (show ¬ q1 = q0 by omega)]
      have := pre_block jCost nB q1 0 r1 (by omega) hql
      simp only [Nat.zero_add, Nat.add_zero] at this
      rw [d1] at this
      simpa using this.symm

theorem total_cost (jCost : List Nat) (nB : Nat) : pre jCost nB (jCost.length * nB) = nB * jCost.sum := by
  unfold pre
  rw [← flat_length, List.take_length]
  unfold flat
  induction jCost with
  | nil => simp
  | cons c l ih => simp only [List.flatMap_cons, List.sum_append, List.sum_cons, ih, List.sum_replicate, smul_eq_mul]; ring

/-- Load balance: the cost of the bands of a process exceeds the average by at most one more than the cost of one band. -/
theorem C97_balance (jCost : List Nat) (nB nProc : Nat) (hB : 0 < nB) (hn : 0 < nProc) (M : Nat) (hM : ∀ c ∈ jCost, c ≤ M) (j : Nat) (hj : j < nProc) :
    workOf jCost (chunks jCost nB nProc j) ≤ nB * jCost.sum / nProc + 1 + M := by
  have h1 := chunks_work jCost nB nProc hB hn j hj
  have h2 := start_cost jCost nB nProc hn M hM j hj
  rw [total_cost] at h2
  omega

example : (List.range 3).map (fun j => workOf [2, 3, 3] (chunks [2, 3, 3] 4 3 j)) = [11, 12, 9] := by decide

/-- With no more processes than the total cost divided by that of any band, every chunk has bands, and its occupations are those of its bands. -/
theorem C97_occupations_partial {α : Type} (jCost : List Nat) (nB nProc : Nat) (hB : 0 < nB) (hn : 0 < nProc) (hm : ∀ c ∈ jCost, 0 < c ∧ nProc * c ≤ nB * jCost.sum) (F : List α) (hF : F.length = nB)
    (j : Nat) (hj : j < nProc) (c : Chunk) (hc : c ∈ chunks jCost nB nProc j) :
    ∃ l, fillingsOf F c = .ok l ∧ l.length = c.bStop - c.bStart ∧ ∀ i < c.bStop - c.bStart, l[i]? = F[c.bStart + i]? := by
  have h1 := chunk_range jCost nB nProc hB hn j hj c hc
  have h2 := chunk_nonempty jCost nB nProc hB hn (by rw [total_cost]; exact hm) j hj c hc
  refine ⟨_, if_pos ⟨by omega, h2, by omega⟩, ?_, fun i hi => ?_⟩
  · rw [List.length_take, List.length_drop]; omega
  · rw [List.getElem?_take, if_pos hi, List.getElem?_drop]

example : (∀ c ∈ [2, 3, 3], 0 < c ∧ 8 * c ≤ 4 * [2, 3, 3].sum) ∧ 4 * [2, 3, 3].sum = 32 := by decide

/-- With more processes the program can stop: two spins at one k-point without symmetries, three bands, five processes. Process 2 has the first state, and is given a chunk without bands
of that state; taking its occupations violates an assertion. -/
theorem C97_chunk_fails (F : List ℝ) : ⟨0, 1, 1⟩ ∈ chunks [1] 3 5 2 ∧ (∃ td, TaskDiv.init 2 5 2 = some td ∧ td.isMine 0 = true) ∧ fillingsOf F ⟨0, 1, 1⟩ = .error .die := by
  refine ⟨by decide, ⟨_, rfl, by decide⟩, ?_⟩
  unfold fillingsOf
  rw [if_neg]
  rintro ⟨_, h, _⟩
  exact absurd h (by simp)

/-! ### Energy and gradient -/

/-- What is assumed of the system: the pairs are those of a mesh with valid transforms, onto all reduced k-points; weights are not zero. -/
structure SysOK (S : Sys) (thr : ℝ) (m : Kmesh) (choice : Nat → Nat) : Prop where
  bands : 0 < S.nB
  procs : 0 < S.nProc
  even : EvenKernel S.K
  mesh : MeshOK S.K thr m choice
  nMesh : S.nMesh = m.n
  pairs : S.kpairs = m.pairs thr choice
  reduced : ∀ ik < m.n, m.iReduced ik < S.Q
  onto : ∀ q < S.Q, ∃ ik < m.n, m.iReduced ik = q
  weight : ∀ q < S.Q, S.weight q ≠ 0

/-- The energy that is computed from reduced k-points, with transforms for each unique pair and with bands divided over processes, is the exchange energy of all pairs of orbitals on the complete mesh:
for every choice of the transforms, number of processes, orbitals and occupations. -/
theorem C97_energy {S : Sys} {thr : ℝ} {m : Kmesh} {choice : Nat → Nat} (h : SysOK S thr m choice) (C : Wfns) (F : Fill) : S.energy C F = fullEnergy S m choice C F := by
  rw [energy_mesh S h.weight h.bands h.procs h.even h.mesh h.pairs h.reduced h.onto]
  unfold fullEnergy
  refine Finset.sum_congr rfl fun s _ => ?_
  have swap : ∀ X : Nat → Nat → Nat → Nat → ℝ, ∑ b ∈ Finset.range S.nB, ∑ b' ∈ Finset.range S.nB, ∑ ik ∈ Finset.range m.n, ∑ jk ∈ Finset.range m.n, X b b' ik jk =
      ∑ ik ∈ Finset.range m.n, ∑ jk ∈ Finset.range m.n, ∑ b ∈ Finset.range S.nB, ∑ b' ∈ Finset.range S.nB, X b b' ik jk := fun X => by
    calc _ = ∑ b ∈ Finset.range S.nB, ∑ ik ∈ Finset.range m.n, ∑ b' ∈ Finset.range S.nB, ∑ jk ∈ Finset.range m.n, X b b' ik jk := Finset.sum_congr rfl fun b _ => Finset.sum_comm
      _ = ∑ ik ∈ Finset.range m.n, ∑ b ∈ Finset.range S.nB, ∑ b' ∈ Finset.range S.nB, ∑ jk ∈ Finset.range m.n, X b b' ik jk := Finset.sum_comm
      _ = ∑ ik ∈ Finset.range m.n, ∑ b ∈ Finset.range S.nB, ∑ jk ∈ Finset.range m.n, ∑ b' ∈ Finset.range S.nB, X b b' ik jk := Finset.sum_congr rfl fun ik _ => Finset.sum_congr rfl fun b _ => Finset.sum_comm
      _ = _ := Finset.sum_congr rfl fun ik _ => Finset.sum_comm
  rw [swap]
  refine Finset.sum_congr rfl fun ik _ => Finset.sum_congr rfl fun jk _ => Finset.sum_congr rfl fun b _ => Finset.sum_congr rfl fun b' _ => ?_
  rw [form_re, Sys.kap, h.nMesh]

/-- The number of processes does not matter. -/
theorem C97_processes {S : Sys} {thr : ℝ} {m : Kmesh} {choice : Nat → Nat} (h : SysOK S thr m choice) (n : Nat) (hn : 0 < n) (C : Wfns) (F : Fill) :
    Sys.energy { S with nProc := n } C F = S.energy C F := by
  have h' : SysOK { S with nProc := n } thr m choice := ⟨h.bands, hn, h.even, h.mesh, h.nMesh, h.pairs, h.reduced, h.onto, h.weight⟩
  rw [C97_energy h, C97_energy h']
  rfl

/-- The energy is not positive, for a repulsive interaction. -/
theorem C97_sign {S : Sys} {thr : ℝ} {m : Kmesh} {choice : Nat → Nat} (h : SysOK S thr m choice) (C : Wfns) (F : Fill) (hK : ∀ v, 0 ≤ S.K v) (ha : 0 ≤ S.aXX) (hs : 0 ≤ S.spinWeight) (hF : ∀ s q b, 0 ≤ F s q b) :
    S.energy C F ≤ 0 := by
  rw [C97_energy h]
  unfold fullEnergy
  refine Finset.sum_nonpos fun s _ => Finset.sum_nonpos fun ik _ => Finset.sum_nonpos fun jk _ => Finset.sum_nonpos fun b _ => Finset.sum_nonpos fun b' _ => ?_
  refine mul_nonpos_of_nonpos_of_nonneg ?_ (finsum_nonneg fun G => mul_nonneg (hK _) (sq_nonneg _))
  have h1 : 0 ≤ S.aXX / 2 * S.spinWeight / (m.n : ℝ) ^ 2 * F s (m.iReduced ik) b * F s (m.iReduced jk) b' :=
    mul_nonneg (mul_nonneg (div_nonneg (mul_nonneg (by linarith) hs) (sq_nonneg _)) (hF _ _ _)) (hF _ _ _)
  have e : -(S.aXX / 2) * S.spinWeight / (m.n : ℝ) ^ 2 * F s (m.iReduced ik) b * F s (m.iReduced jk) b' = -(S.aXX / 2 * S.spinWeight / (m.n : ℝ) ^ 2 * F s (m.iReduced ik) b * F s (m.iReduced jk) b') := by ring
  rw [e]; linarith

/-- The gradient: to first order in any change of the orbitals, the energy changes by twice the real part of the weighted overlap of the change with the accumulated gradient. -/
theorem C97_gradient {S : Sys} {thr : ℝ} {m : Kmesh} {choice : Nat → Nat} (h : SysOK S thr m choice) (C D : Wfns) (F : Fill) :
    HasDerivAt (fun t : ℝ => S.energy (fun s q b => C s q b + (t : ℂ) • D s q b) F)
      (∑ s ∈ Finset.range S.nSpins, ∑ q ∈ Finset.range S.Q, ∑ b ∈ Finset.range S.nB,
        2 * (S.weight q * F s q b * (∑ G ∈ (D s q b).support, star (D s q b G) * S.grad C F s q b G).re)) 0 :=
  energy_deriv S h.weight h.bands h.procs h.even h.mesh h.pairs h.reduced h.onto C D F

/-- The search for transforms: it reports a number of pairs that is not above that of the choices it starts from or visits. This is the number for the transforms that are used, or no step
was better than the start. Missing: in the latter case the transforms used are the first of each k-point, not those of the start, and their number can be another one. -/
theorem C97_search_partial (m : Kmesh) (thr : ℝ) (Q : Nat) (first : Nat → Nat) (steps : List Step) :
    let r := m.anneal thr Q first steps
    r.bestScore ≤ m.score thr Q first ∧ r.bestScore ≤ r.score ∧ r.score = m.score thr Q r.choices ∧
      (r.bestScore = m.score thr Q r.best ∨ (r.bestScore = m.score thr Q first ∧ r.best = fun _ => 0)) := by
  intro r
  have key : ∀ (l : List Step) (a : Anneal),
      (a.bestScore ≤ m.score thr Q first ∧ a.bestScore ≤ a.score ∧ a.score = m.score thr Q a.choices ∧ (a.bestScore = m.score thr Q a.best ∨ (a.bestScore = m.score thr Q first ∧ a.best = fun _ => 0))) →
      let r := l.foldl (m.step thr Q) a
      r.bestScore ≤ m.score thr Q first ∧ r.bestScore ≤ r.score ∧ r.score = m.score thr Q r.choices ∧ (r.bestScore = m.score thr Q r.best ∨ (r.bestScore = m.score thr Q first ∧ r.best = fun _ => 0)) := by
    intro l
    induction l with
    | nil => intro a h; exact h
    | cons x l ih =>
      intro a h
      refine ih _ ?_
      obtain ⟨h1, h2, h3, h4⟩ := h
      unfold Kmesh.step
      simp only []
      by_cases hb : m.score thr Q (Function.update a.choices x.ik x.choice) < a.bestScore
      · simp only [if_pos hb]
        split_ifs
        · exact ⟨by simp only []; omega, le_refl _, rfl, Or.inl rfl⟩
        · exact ⟨by simp only []; omega, by simp only []; omega, h3, Or.inl rfl⟩
      · simp only [if_neg hb]
        split_ifs
        · exact ⟨h1, by simp only []; omega, rfl, h4⟩
        · exact ⟨h1, h2, h3, h4⟩
  exact key steps _ ⟨le_refl _, le_refl _, rfl, Or.inr ⟨rfl, rfl⟩⟩

/-! A system that satisfies the assumptions: two k-points related by time reversal. -/

/-- A mesh of two points, opposite to each other. -/
def mesh2 : Kmesh := ⟨2, fun _ => 0, fun ik => if ik = 0 then [⟨Op.one, 1⟩] else [⟨Op.one, -1⟩]⟩

/-- Two bands, an interaction with a finite range. -/
def sys2 : Sys where
  nSpins := 2
  Q := 1
  nB := 2
  k := fun _ => vec (1 / 4) 0 0
  weight := fun _ => 1
  K := fun v => 1 / (1 + dot v v)
  spinWeight := 1
  aXX := 1 / 4
  nMesh := 2
  kpairs := mesh2.pairs (1 / 100) fun _ => 0
  nProc := 3

theorem one_recip (v : V3 ℝ) : (Op.one : Op ℝ).applyRecip v = v := by
  funext i
  show mulVM v (castMat (diag 1 1 1)) i = v i
  fin_cases i <;> simp [mulVM, castMat, diag, vec]

theorem mesh2_pick (ik : Nat) (h : ik < 2) : (mesh2.pick (fun _ => 0) ik).op = Op.one ∧ ((mesh2.pick (fun _ => 0) ik).invert = 1 ∨ (mesh2.pick (fun _ => 0) ik).invert = -1) := by
  interval_cases ik <;> simp [mesh2, Kmesh.pick]

theorem sys2_ok : SysOK sys2 (1 / 100) mesh2 fun _ => 0 where
  bands := by decide
  procs := by decide
  even := fun v => by simp [sys2, dot]
  mesh := by
    refine ⟨fun ik hik => ?_, fun ik hik jk hjk ik' hik' jk' hjk' _ => ⟨fun _ => 0, fun i => ?_⟩⟩
    · obtain ⟨h1, h2⟩ := mesh2_pick ik hik
      refine ⟨?_, h2, fun v => ?_⟩
      · rw [h1]; left; decide
      · rw [h1, one_recip]
    · simp only [KT.net, (mesh2_pick ik hik).1, (mesh2_pick jk hjk).1, (mesh2_pick ik' hik').1, (mesh2_pick jk' hjk').1]
      simp
  nMesh := rfl
  pairs := rfl
  reduced := fun _ _ => by simp [mesh2, sys2]
  onto := fun q hq => ⟨0, by decide, by simp only [sys2] at hq; simp [mesh2]; omega⟩
  weight := fun _ _ => by simp [sys2]

example (C : Wfns) (F : Fill) : sys2.energy C F = fullEnergy sys2 mesh2 (fun _ => 0) C F := C97_energy sys2_ok C F

end

/-! ### The compressed operator -/
section
open Matrix
open scoped ComplexOrder
noncomputable section
variable {N n : Nat}

open scoped MatrixOrder in
theorem psd_factor {V : Matrix (Fin N) (Fin N) ℂ} (hV : V.PosSemidef) : ∃ B : Matrix (Fin N) (Fin N) ℂ, V = Bᴴ * B := CStarAlgebra.nonneg_iff_eq_star_mul_self.mp hV.nonneg

/-- The compressed operator: built from the orbitals `C` and a positive semidefinite operator `V` applied to them (exchange with the opposite sign), it gives the same as `V` on these orbitals, it is nowhere
above `V`, and the energy is that of `V`, for linearly dependent orbitals too. -/
theorem C97_compressed {d : MatFunc.Diag n} (hd : MatFunc.DiagOK d) {V : Matrix (Fin N) (Fin N) ℂ} (hV : V.PosSemidef) (C : Matrix (Fin N) (Fin n) ℂ) :
    ∃ psi, ace d C (V * C) = some psi ∧
      (∀ aXX : ℝ, aceApply aXX psi C = -(aXX : ℂ) • (V * C)) ∧
      (V - psi * psiᴴ).PosSemidef ∧
      ∀ (aXX w : ℝ) (F : Fin n → ℝ), aceEnergy aXX w psi F C = -(1 / 2) * aXX * w * ∑ b, F b * ((Cᴴ * V * C) b b).re := by
  obtain ⟨B, rfl⟩ := psd_factor hV
  have hM : (Cᴴ * (Bᴴ * B * C)).PosSemidef := by
    have := posSemidef_conjTranspose_mul_self (B * C)
    rwa [conjTranspose_mul, Matrix.mul_assoc, ← Matrix.mul_assoc Bᴴ] at this
  obtain ⟨S, h1, -⟩ := MatFunc.pow_some (p := -0.5) (h := true) hd hM.1 (Or.inr (Or.inl rfl))
  obtain ⟨q1, q2, q3, q4, q5, q6, q7, q8⟩ := MatFunc.invsqrt_psd (hd _ hM.1) hM rfl
  set M := Cᴴ * (Bᴴ * B * C) with hMd
  set R : MatFunc.Mat n := MatFn.fn (d M).1 (d M).2 (fun x => (MatFunc.powFn (-0.5) x : ℂ)) with hR
  set P := R * M * R with hP
  have hMB : M = (B * C)ᴴ * (B * C) := by rw [hMd, conjTranspose_mul]; simp only [Matrix.mul_assoc]
  -- the part of `C` that `P` removes is not seen
  have hBC : B * C * P = B * C := by
    have h0 : (B * C * (1 - P))ᴴ * (B * C * (1 - P)) = 0 := by
      rw [conjTranspose_mul, Matrix.mul_assoc, ← Matrix.mul_assoc _ (B * C), ← hMB, Matrix.mul_sub, Matrix.mul_one, q7, sub_self, Matrix.mul_zero]
    have h1 := conjTranspose_mul_self_eq_zero.1 h0
    rw [Matrix.mul_sub, Matrix.mul_one, sub_eq_zero] at h1
    exact h1.symm
  have hpsi : Bᴴ * B * C * R * (Bᴴ * B * C * R)ᴴ = Bᴴ * ((B * C * R) * (B * C * R)ᴴ) * B := by
    simp only [conjTranspose_mul, conjTranspose_conjTranspose, Matrix.mul_assoc]
  have happ : Bᴴ * B * C * R * ((Bᴴ * B * C * R)ᴴ * C) = Bᴴ * B * C := by
    have e : Bᴴ * B * C * R * ((Bᴴ * B * C * R)ᴴ * C) = Bᴴ * (B * C * (R * Rᴴ * M)) := by
      rw [hMB]; simp only [conjTranspose_mul, conjTranspose_conjTranspose, Matrix.mul_assoc]
    rw [e, q1.eq, q6, hBC, Matrix.mul_assoc]
  refine ⟨Bᴴ * B * C * R, ?_, fun aXX => ?_, ?_, fun aXX w F => ?_⟩
  · unfold ace MatFunc.invsqrt
    rw [h1]
    rfl
  · unfold aceApply
    rw [happ]
  · set T := (B * C * R) * (B * C * R)ᴴ with hT
    have hTT : T * T = T := by
      have e1 : (B * C * R)ᴴ * (B * C * R) = P := by
        rw [conjTranspose_mul, q1.eq, Matrix.mul_assoc, ← Matrix.mul_assoc _ (B * C), ← hMB, ← Matrix.mul_assoc]
      calc T * T = (B * C * R) * ((B * C * R)ᴴ * (B * C * R)) * (B * C * R)ᴴ := by rw [hT]; simp only [Matrix.mul_assoc]
        _ = B * C * (R * P) * (B * C * R)ᴴ := by rw [e1, Matrix.mul_assoc (B * C)]
        _ = T := by rw [q5]
    have hTH : Tᴴ = T := by rw [hT, conjTranspose_mul, conjTranspose_conjTranspose]
    have e : Bᴴ * B - Bᴴ * B * C * R * (Bᴴ * B * C * R)ᴴ = ((1 - T) * B)ᴴ * ((1 - T) * B) := by
      rw [hpsi, conjTranspose_mul, conjTranspose_sub, conjTranspose_one, hTH]
      have : (1 - T) * (1 - T) = 1 - T := by
        rw [Matrix.mul_sub, Matrix.mul_one, Matrix.sub_mul, Matrix.one_mul, hTT, sub_self, sub_zero]
      calc Bᴴ * B - Bᴴ * T * B = Bᴴ * (1 - T) * B := by rw [Matrix.mul_sub, Matrix.mul_one, Matrix.sub_mul]
        _ = Bᴴ * ((1 - T) * (1 - T)) * B := by rw [this]
        _ = _ := by simp only [Matrix.mul_assoc]
    rw [e]
    exact posSemidef_conjTranspose_mul_self _
  · unfold aceEnergy
    set X := (Bᴴ * B * C * R)ᴴ * C with hX
    have hXX : Xᴴ * X = Cᴴ * (Bᴴ * B) * C := by
      rw [hX, conjTranspose_mul, conjTranspose_conjTranspose, Matrix.mul_assoc, happ]
      simp only [Matrix.mul_assoc]
    have ht : (X * diagonal (fun b => (F b : ℂ)) * Xᴴ).trace = ∑ b, (Cᴴ * (Bᴴ * B) * C) b b * F b := by
      rw [Matrix.trace_mul_comm, ← Matrix.mul_assoc, hXX]
      simp [Matrix.trace, Matrix.mul_diagonal]
    rw [ht, Complex.re_sum]
    have : ∀ b, ((Cᴴ * (Bᴴ * B) * C) b b * (F b : ℂ)).re = F b * ((Cᴴ * (Bᴴ * B) * C) b b).re := fun b => by rw [mul_comm, Complex.re_ofReal_mul]
    simp only [this]
    norm_num

/-- The hypothesis is met by every operator of the form of a sum of projectors. -/
example : ((1 : Matrix (Fin 2) (Fin 2) ℂ)).PosSemidef := PosSemidef.one

end
end
end Jdftx.EXX
