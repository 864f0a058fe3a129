import Verif.Model.Pulay
import Mathlib.Algebra.Field.Rat
import Mathlib.Algebra.BigOperators.Fin
import Mathlib.Tactic.Linarith

/-!
# C40: Pulay mixing
-/
namespace Jdftx.Pulay

variable {K V : Type} [Field K] [AddCommGroup V] [Module K V]

/-- The overlap matrix holds the inner products (with the metric) of exactly the stored residuals; variables and residuals
come in pairs; the history is within its limit. -/
structure Consistent (env : Env K V) (s : PState K V) : Prop where
  pairs : s.vars.length = s.ress.length
  limit : s.ress.length ≤ env.history
  overlap : ∀ i j a b, s.ress[i]? = some a → s.ress[j]? = some b → s.ov i j = env.dot a (env.metric b)

/-- Inner product and metric are symmetric. -/
def Symm (env : Env K V) : Prop := ∀ a b, env.dot a (env.metric b) = env.dot b (env.metric a)

omit [Field K] [AddCommGroup V] [Module K V] in
theorem makeRoom_consistent (env : Env K V) (hh : 0 < env.history) (s : PState K V) (h : Consistent env s) :
    ∃ s1, makeRoom env s = .ok s1 ∧ Consistent env s1 ∧ s1.ress.length < env.history ∧
      (s1.vars = s.vars ∧ s1.ress = s.ress ∨ s1.vars = s.vars.tail ∧ s1.ress = s.ress.tail) := by
  unfold makeRoom
  by_cases hc : env.history ≤ s.ress.length
  · simp only [hc, if_true]
    obtain ⟨vs, rs, ov⟩ := s
    cases rs with
    | nil => simp at hc; omega
    | cons r rs =>
      cases vs with
      | nil => have := h.pairs; simp at this
      | cons v vs =>
        have h1 := h.pairs
        have h2 := h.limit
        simp at h1 h2
        refine ⟨_, rfl, ⟨h1, by simp; omega, ?_⟩, by simp; omega, Or.inr ⟨rfl, rfl⟩⟩
        intro i j a b hi hj
        simp only at hi hj ⊢
        have li := (List.getElem?_eq_some_iff.mp hi).1
        have lj := (List.getElem?_eq_some_iff.mp hj).1
        have hlen : 1 < (r :: rs).length := by simp; omega
        rw [if_pos hlen, if_pos (by simp; omega)]
        exact h.overlap (i+1) (j+1) a b (by simpa using hi) (by simpa using hj)
  · simp only [hc, if_false]
    exact ⟨s, rfl, h, by omega, Or.inl ⟨rfl, rfl⟩⟩

omit [Field K] [Module K V] in
/-- After the update the matrix is consistent, if it was so for all but the newest residual. -/
theorem updateOverlap_consistent (env : Env K V) (hs : Symm env) (s1 : PState K V) (h : Consistent env s1) (hl : s1.ress.length < env.history)
    (cur new : V) :
    Consistent env (updateOverlap env { s1 with vars := s1.vars ++ [cur], ress := s1.ress ++ [new] }) := by
  unfold updateOverlap
  simp only [List.getLast?_concat, List.length_append, List.length_singleton, Nat.add_sub_cancel]
  refine ⟨by simp [h.pairs], by simp; omega, ?_⟩
  intro i j a b hi hj
  simp only at hi hj ⊢
  have li := (List.getElem?_eq_some_iff.mp hi).1
  have lj := (List.getElem?_eq_some_iff.mp hj).1
  rw [List.length_append, List.length_singleton] at li lj
  have gi : (s1.ress ++ [new]).getD i 0 = a := by rw [List.getD_eq_getElem?_getD, hi]; rfl
  have gj : (s1.ress ++ [new]).getD j 0 = b := by rw [List.getD_eq_getElem?_getD, hj]; rfl
  by_cases h1 : i = s1.ress.length
  · rw [if_pos ⟨h1, lj⟩, gj]
    have : a = new := by subst h1; simpa using hi.symm
    rw [this]; exact hs b new
  · rw [if_neg (by tauto)]
    by_cases h2 : j = s1.ress.length
    · rw [if_pos ⟨h2, li⟩, gi]
      have : b = new := by subst h2; simpa using hj.symm
      rw [this]
    · rw [if_neg (by tauto)]
      rw [List.getElem?_append_left (by omega)] at hi hj
      exact h.overlap i j a b hi hj

/-- What a `minimize` call leaves behind: history within its limit, pairs complete. -/
structure Bounded (env : Env K V) (s : PState K V) : Prop where
  pairs : s.vars.length = s.ress.length
  limit : s.ress.length ≤ env.history

/-- **C40 (one call), what holds.** For every history limit `≥ 1`, every sequence of SCF cycles and stopping tests, and every
call started with a consistent mixer: no out-of-range access happens, at every mixing step the overlap matrix holds the inner
products of exactly the stored residuals, and the history stays within its limit also at the end.  Missing from the full
statement: calls repeated on one object without clearing it (`C40_violation`) and history limit 0 (`C40_no_history`). -/
theorem C40_overlap_partial (env : Env K V) (hh : 0 < env.history) (hs : Symm env) (events : List (Event V)) (s : PState K V)
    (h : Consistent env s) (cur : V) :
    ∃ r, minimize env events s cur = .ok r ∧ (∀ m ∈ r.2, Consistent env m) ∧ Bounded env r.1 := by
  induction events generalizing s cur with
  | nil => exact ⟨_, rfl, by simp, ⟨h.pairs, h.limit⟩⟩
  | cons e es ih =>
    obtain ⟨s1, hm, hc, hl, _⟩ := makeRoom_consistent env hh s h
    have hu := updateOverlap_consistent env hs s1 hc hl cur (e.new cur + (-1 : K) • cur)
    have hcy : cycle env s cur (e.new cur) = .ok { s1 with vars := s1.vars ++ [cur], ress := s1.ress ++ [e.new cur + (-1 : K) • cur] } := by
      unfold cycle; rw [hm]
    unfold minimize
    rw [hcy]
    simp only
    cases e.stop
    · simp only [Bool.false_eq_true, if_false]
      obtain ⟨r, h1, h2, h3⟩ := ih _ hu (mixed env _ (coeffs _))
      rw [h1]
      refine ⟨_, rfl, ?_, h3⟩
      intro m hm
      rw [List.mem_cons] at hm
      rcases hm with hm | hm
      · rw [hm]; exact hu
      · exact h2 m hm
    · simp only [if_true]
      exact ⟨_, rfl, by simp, ⟨by simp [hc.pairs], by simp; omega⟩⟩

omit [Field K] [Module K V] in
/-- **C40 (repeated calls).** A mixer is consistent when new, after `clearState`, and after `loadState` of any file, whatever
was done before: so the previous theorem applies to each of several calls if the mixer is cleared or loaded in between. -/
theorem C40_reset (env : Env K V) (hs : Symm env) (s : PState K V) (pairs : List (V × V)) :
    Consistent env (clearState s) ∧ Consistent env (loadState env pairs s) := by
  constructor
  · exact ⟨rfl, by simp [clearState], by intro i j a b hi; simp [clearState] at hi⟩
  · unfold loadState
    simp only
    refine ⟨by simp, by simp; omega, ?_⟩
    intro i j a b hi hj
    simp only at hi hj ⊢
    have li := (List.getElem?_eq_some_iff.mp hi).1
    have lj := (List.getElem?_eq_some_iff.mp hj).1
    rw [if_pos ⟨li, lj⟩]
    rw [List.getD_eq_getElem?_getD, List.getD_eq_getElem?_getD, hi, hj]
    split
    · exact hs b a
    · rfl

omit [Field K] [Module K V] in
/-- **C40 (restart).** Loading a saved history keeps its most recent pairs, in order, as many as the limit allows. -/
theorem C40_load (env : Env K V) (pairs : List (V × V)) (s : PState K V) :
    ∃ old, pairs = old ++ (loadState env pairs s).vars.zip (loadState env pairs s).ress ∧
      (loadState env pairs s).vars.length = min env.history pairs.length ∧
      (loadState env pairs s).ress.length = min env.history pairs.length := by
  refine ⟨pairs.take (pairs.length - env.history), ?_, by simp [loadState]; omega, by simp [loadState]; omega⟩
  simp only [loadState]
  have hz : ∀ l : List (V × V), (l.map Prod.fst).zip (l.map Prod.snd) = l := by
    intro l
    induction l with
    | nil => rfl
    | cons a t ih => simp [ih]
  rw [hz, List.take_append_drop]

-- Three saved pairs, a limit of two: the last two are kept.
example (env : Env ℚ ℚ) (h : env.history = 2) (s : PState ℚ ℚ) :
    (loadState env [(1, 2), (3, 4), (5, 6)] s).vars = [3, 5] := by
  simp [loadState, h]

/-- **C40 (most recent history).** A cycle keeps exactly the most recent variables and residuals, up to the limit: the new
variable and the change made by the cycle are added, and only the oldest entry is dropped, if the history was full. -/
theorem C40_recent (env : Env K V) (hh : 0 < env.history) (s : PState K V) (h : Consistent env s) (cur new : V) :
    ∃ s1, cycle env s cur new = .ok s1 ∧
      s1.vars = (s.vars ++ [cur]).drop (s.vars.length + 1 - env.history) ∧
      s1.ress = (s.ress ++ [new - cur]).drop (s.ress.length + 1 - env.history) := by
  have e : new + (-1 : K) • cur = new - cur := by simp [sub_eq_add_neg]
  unfold cycle makeRoom
  have hp := h.pairs
  have hl := h.limit
  by_cases hc : env.history ≤ s.ress.length
  · simp only [hc, if_true]
    obtain ⟨vs, rs, ov⟩ := s
    cases rs with
    | nil => simp at hc; omega
    | cons r rs =>
      cases vs with
      | nil => simp at hp
      | cons v vs =>
        refine ⟨_, rfl, ?_, ?_⟩
        · have : (v :: vs).length + 1 - env.history = 1 := by simp at hp hl hc ⊢; omega
          rw [this]; rfl
        · have : (r :: rs).length + 1 - env.history = 1 := by simp at hp hl hc ⊢; omega
          rw [this, ← e]; rfl
  · simp only [hc, if_false]
    refine ⟨_, rfl, ?_, ?_⟩
    · rw [Nat.sub_eq_zero_of_le (by omega)]; rfl
    · rw [Nat.sub_eq_zero_of_le (by omega), ← e]; rfl

section border
variable (s : PState K V)
omit [AddCommGroup V] [Module K V]
theorem bordered_in (i j : Fin s.ress.length) : bordered s i.castSucc j.castSucc = s.ov i j := by simp [bordered]
theorem bordered_col (i : Fin s.ress.length) : bordered s i.castSucc (Fin.last _) = 1 := by simp [bordered]
theorem bordered_row (j : Fin s.ress.length) : bordered s (Fin.last _) j.castSucc = 1 := by simp [bordered]
theorem bordered_corner : bordered s (Fin.last _) (Fin.last _) = 0 := by simp [bordered]
end border

omit [AddCommGroup V] [Module K V] in
/-- **C40 (coefficients).** Whenever the bordered matrix is invertible the mixing coefficients add up to one, and they make
the mixed residual stationary: all inner products of the stored residuals with it agree. -/
theorem C40_coefficients (s : PState K V) (hinv : IsUnit (bordered s).det) :
    (∑ j, coeffs s j) = 1 ∧
    ∃ lam : K, ∀ i : Fin s.ress.length, (∑ j : Fin s.ress.length, s.ov i j * coeffs s j) = lam := by
  have hmul := Matrix.mul_nonsing_inv (bordered s) hinv
  constructor
  · have h := congrFun (congrFun hmul (Fin.last _)) (Fin.last _)
    rw [Matrix.mul_apply, Matrix.one_apply_eq, Fin.sum_univ_castSucc] at h
    simp only [bordered_row, bordered_corner, one_mul, zero_mul, add_zero] at h
    exact h
  · refine ⟨-((bordered s)⁻¹ (Fin.last _) (Fin.last _)), fun i => ?_⟩
    have h := congrFun (congrFun hmul i.castSucc) (Fin.last _)
    rw [Matrix.mul_apply, Matrix.one_apply_ne (Fin.castSucc_lt_last i).ne, Fin.sum_univ_castSucc] at h
    simp only [bordered_in, bordered_col, one_mul] at h
    exact eq_neg_of_add_eq_zero_left h

/-- The mixed variable is reproduced if all stored variables agree and the residuals vanish (a fixed point stays). -/
theorem C40_fixed_point (env : Env K V) (s : PState K V) (v : V) (hp : s.vars.length = s.ress.length) (hv : ∀ x ∈ s.vars, x = v)
    (hr : ∀ x ∈ s.ress, env.precond x = 0) (hinv : IsUnit (bordered s).det) : mixed env s (coeffs s) = v := by
  have h1 := (C40_coefficients s hinv).1
  unfold mixed
  have e : ∀ j : Fin s.ress.length, coeffs s j • s.vars.getD j 0 + coeffs s j • env.precond (s.ress.getD j 0) = coeffs s j • v := by
    intro j
    have a : s.vars.getD j 0 = v := by
      rw [List.getD_eq_getElem?_getD, List.getElem?_eq_getElem (by rw [hp]; exact j.2)]
      exact hv _ (List.getElem_mem _)
    have b : env.precond (s.ress.getD j 0) = 0 := by
      rw [List.getD_eq_getElem?_getD, List.getElem?_eq_getElem j.2]
      exact hr _ (List.getElem_mem _)
    rw [a, b]; simp
  rw [List.map_congr_left (fun j _ => e j), ← Fin.sum_univ_def, ← Finset.sum_smul, h1, one_smul]

/-! ## What goes wrong -/

/-- Scalars as variables, unit metric and preconditioner. -/
def env1 (history : Nat) : Env Rat Rat := ⟨history, fun a b => a * b, id, id⟩

/-- **C40 is false for repeated calls**: the first call stops after one cycle (converged), which stores its residual without
overlaps; a second call on the same object (as done by the outer exact-exchange loop, SCF.cpp:106-107) then mixes with a
matrix entry never computed. Here the stale entry is 7 while the residual is 1. -/
theorem C40_violation :
    ∃ (s1 : PState Rat Rat) (m : PState Rat Rat), 
      (∃ mixes, minimize (env1 5) [⟨fun _ => 1, true⟩] ⟨[], [], fun _ _ => 7⟩ 0 = .ok (s1, mixes)) ∧
      (∃ s2 rest, minimize (env1 5) [⟨fun _ => 2, false⟩] s1 0 = .ok (s2, m :: rest)) ∧
      m.ress = [1, 2] ∧ m.ov 0 0 = 7 ∧ ¬ Consistent (env1 5) m := by
  refine ⟨_, _, ⟨_, rfl⟩, ⟨_, _, rfl⟩, ?_, ?_, ?_⟩
  · decide +kernel
  · decide +kernel
  · intro h
    have := h.overlap 0 0 1 1 (by decide +kernel) (by decide +kernel)
    revert this
    decide +kernel

/-- With history limit 0 the first iteration erases from an empty vector. -/
theorem C40_no_history (events : List (Event Rat)) (e : Event Rat) (cur : Rat) (ov : Nat → Nat → Rat) :
    minimize (env1 0) (e :: events) ⟨[], [], ov⟩ cur = .error .ub := rfl

/-- A consistent start, three cycles with limit 2: the theorem applies and the mixing matrices are those expected. -/
example : Symm (env1 2) ∧ Consistent (env1 2) ⟨[], [], fun _ _ => 7⟩ ∧
    (updateOverlap (env1 2) ⟨[0, 1], [3, 4], fun _ _ => 9⟩).ov 1 0 = 12 ∧
    (updateOverlap (env1 2) ⟨[0, 1], [3, 4], fun _ _ => 9⟩).ov 1 1 = 16 := by
  refine ⟨fun a b => ?_, ⟨rfl, by simp, by intro i j a b h; simp at h⟩, by decide +kernel, by decide +kernel⟩
  simp [env1, mul_comm]

end Jdftx.Pulay
