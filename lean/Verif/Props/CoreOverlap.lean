import Verif.Lemmas.CoreOverlap
/-!
# C117: overlapping atoms are found

Full statement: positions are accepted exactly when no two atoms, nor an atom and an image of itself, have overlapping
cores or are on top of each other, in any cell. Proved for different atoms with nonzero radii in cells with right angles;
and for all cells that what is found is an overlap. The rest is violated by the code, see the theorems ending in `_fails`.
-/
namespace Jdftx.Core
open Jdftx.M3

/-- In every cell, the positions are accepted exactly if the wrapped differences of all pairs of atoms with nonzero radii are
long enough: each pair of different species in both orders, and each pair of the same species once. -/
theorem C117_pairs (cond : Cond) (R : Mat ℝ) (sps : List Species) : checkPositions cond R sps = .ok true ↔
    ∀ i n x r i1 n1 y r1, Atom sps i n x r → Atom sps i1 n1 y r1 → r ≠ 0 → r1 ≠ 0 → (i1 = i → n < n1) →
      Apart cond r r1 (len R fun d => (x d - y d) - ⌊(x d - y d) + 0.5⌋) := by
  rw [checkPositions, fold_iff]
  constructor
  · intro h i n x r i1 n1 y r1 ha hb hr hr1 hlt
    exact h ⟨x, y, r, r1⟩ ((mem_visited _ _).mpr ⟨i, n, i1, n1, ha, hb, hr, hr1, hlt⟩)
  · intro h p hp
    obtain ⟨i, n, i1, n1, ha, hb, hr, hr1, hlt⟩ := (mem_visited _ _).mp hp
    exact h i n p.x p.r i1 n1 p.y p.r1 ha hb hr hr1 hlt

/-- In cells with right angles, the positions are accepted exactly if no two different atoms with nonzero radii overlap, in
any images. -/
theorem C117_orthogonal_partial (cond : Cond) (R : Mat ℝ) (hR : Orthogonal R) (sps : List Species) :
    checkPositions cond R sps = .ok true ↔
    ∀ i n x r i1 n1 y r1, Atom sps i n x r → Atom sps i1 n1 y r1 → r ≠ 0 → r1 ≠ 0 → (i, n) ≠ (i1, n1) →
      ∀ m : V3 Int, Apart cond r r1 (len R fun d => x d - y d + m d) := by
  rw [C117_pairs]
  constructor
  · intro h i n x r i1 n1 y r1 ha hb hr hr1 hne m
    by_cases hlt : i1 = i → n < n1
    · exact apart_mono (h i n x r i1 n1 y r1 ha hb hr hr1 hlt) (sizetest_le hR x y m)
    · have hi : i1 = i ∧ ¬ n < n1 := by simpa using hlt
      have hn : n1 < n := by
        obtain ⟨rfl, h2⟩ := hi
        have : n ≠ n1 := fun e => hne (by rw [e])
        omega
      have := apart_mono (h i1 n1 y r1 i n x r hb ha hr1 hr fun _ => hn) (sizetest_le hR y x fun d => -m d)
      rw [← len_neg] at this
      have e : (fun d => -(y d - x d + ((-m d : ℤ) : ℝ))) = fun d => x d - y d + m d := by
        funext d; push_cast; ring
      rw [e] at this
      exact apart_comm this
  · intro h i n x r i1 n1 y r1 ha hb hr hr1 hlt
    obtain ⟨m, hm⟩ := sizetest_image R x y
    have := h i n x r i1 n1 y r1 ha hb hr hr1 (by
      intro e
      have e1 := congrArg Prod.fst e
      have e2 := congrArg Prod.snd e
      simp only at e1 e2
      have := hlt e1.symm
      omega) m
    rw [← hm] at this
    exact this

/-- In every cell, if the positions are not accepted then two different atoms overlap. -/
theorem C117_found (cond : Cond) (R : Mat ℝ) (sps : List Species) (h : checkPositions cond R sps ≠ .ok true) :
    ∃ i n x r i1 n1 y r1, Atom sps i n x r ∧ Atom sps i1 n1 y r1 ∧ (i, n) ≠ (i1, n1) ∧
      ∃ m : V3 Int, ¬ Apart cond r r1 (len R fun d => x d - y d + m d) := by
  by_contra hc
  push Not at hc
  apply h
  rw [C117_pairs]
  intro i n x r i1 n1 y r1 ha hb hr hr1 hlt
  obtain ⟨m, hm⟩ := sizetest_image R x y
  have := hc i n x r i1 n1 y r1 ha hb (by
    intro e
    have e1 := congrArg Prod.fst e
    have e2 := congrArg Prod.snd e
    simp only at e1 e2
    have := hlt e1.symm
    omega) m
  rw [← hm] at this
  exact this

/-- The run ends only for atoms on top of each other. -/
theorem C117_ends (cond : Cond) (R : Mat ℝ) (sps : List Species) (e : Err) (h : checkPositions cond R sps = .error e) :
    e = .die ∧ ∃ i n x r i1 n1 y r1, Atom sps i n x r ∧ Atom sps i1 n1 y r1 ∧ (i, n) ≠ (i1, n1) ∧
      ∃ m : V3 Int, len R (fun d => x d - y d + m d) < 1 / 10 ^ 10 := by
  have key : ∀ (l : List Pair) (o : Res Bool), (∀ e', o ≠ .error e') → l.foldl (body cond R) o = .error e →
      e = .die ∧ ∃ p ∈ l, sizetest R p.x p.y < minIonDistance := by
    intro l
    induction l with
    | nil => intro o ho hl; exact absurd hl (ho e)
    | cons p l ih =>
      intro o ho hl
      rw [List.foldl_cons] at hl
      by_cases hb : ∃ e', body cond R o p = .error e'
      · obtain ⟨e', he'⟩ := hb
        have hstay : ∀ l' : List Pair, l'.foldl (body cond R) (.error e') = .error e' := by
          intro l'
          induction l' with
          | nil => rfl
          | cons q l' ih' => rw [List.foldl_cons]; exact ih'
        rw [he', hstay] at hl
        cases o with
        | error e'' => exact absurd rfl (ho e'')
        | ok b =>
          unfold body at he'
          simp only at he'
          split_ifs at he' with h1 h2 h3
          injection he' with he'
          injection hl with hl
          exact ⟨by rw [← hl, ← he'], p, by simp, h3⟩
      · push Not at hb
        obtain ⟨h1, q, hq, h2⟩ := ih _ hb hl
        exact ⟨h1, q, by simp [hq], h2⟩
  obtain ⟨h1, p, hp, h2⟩ := key _ _ (by simp) h
  obtain ⟨i, n, i1, n1, ha, hb, _, _, hlt⟩ := (mem_visited _ _).mp hp
  obtain ⟨m, hm⟩ := sizetest_image R p.x p.y
  refine ⟨h1, i, n, p.x, p.r, i1, n1, p.y, p.r1, ha, hb, ?_, m, ?_⟩
  · intro e
    have e1 := congrArg Prod.fst e
    have e2 := congrArg Prod.snd e
    simp only at e1 e2
    have := hlt e1.symm
    omega
  · rw [← hm]; exact h2

/-- The face-centred cubic cell with cubic lattice constant 10. -/
noncomputable def fcc : Mat ℝ := fun i j => if i = j then 0 else 5

/-- **Violation.** In a face-centred cubic cell, two atoms with core radius 2.5 whose images are closer than 5 are accepted:
wrapping per component does not find the closest image. -/
theorem C117_skewed_fails : ∃ x y : V3 ℝ,
    checkPositions .additive fcc [⟨2.5, [x, y]⟩] = .ok true ∧
    ∃ m : V3 Int, ¬ Apart .additive 2.5 2.5 (len fcc fun d => x d - y d + m d) := by
  refine ⟨fun _ => 0.4, fun _ => 0, ?_, fun d => if d = 0 then -1 else 0, ?_⟩
  · rw [C117_pairs]
    rintro i n x r i1 n1 y r1 ⟨sp, h1, h2, h3⟩ ⟨sp1, g1, g2, g3⟩ hr hr1 hlt
    have hi : i = 0 := by
      by_contra hc
      rw [List.getElem?_eq_none (by simp; omega)] at h1; simp at h1
    have hi1 : i1 = 0 := by
      by_contra hc
      rw [List.getElem?_eq_none (by simp; omega)] at g1; simp at g1
    subst hi hi1
    simp only [List.getElem?_cons_zero, Option.some.injEq] at h1 g1
    subst h1 g1
    have hlt := hlt rfl
    have hn1 : n1 < 2 := by
      by_contra hc
      rw [List.getElem?_eq_none (by simp; omega)] at g3; simp at g3
    have hn : n = 0 := by omega
    have hn1 : n1 = 1 := by omega
    subst hn hn1
    simp only [List.getElem?_cons_zero, List.getElem?_cons_succ, Option.some.injEq] at h3 g3 h2 g2
    subst h3 g3 h2 g2
    have hfl : ⌊(0.4 : ℝ) - 0 + 0.5⌋ = 0 := by
      rw [Int.floor_eq_iff]; norm_num
    have hl : (5 : ℝ) ≤ len fcc fun d => ((0.4 : ℝ) - 0) - ⌊(0.4 : ℝ) - 0 + 0.5⌋ := by
      unfold len
      apply Real.le_sqrt_of_sq_le
      rw [hfl]
      simp [dot, mulMV, fcc]; norm_num
    refine ⟨by linarith [show (1 : ℝ) / 10 ^ 10 ≤ 5 by norm_num], fun _ => ?_, fun h => by simp at h⟩
    linarith
  · rintro ⟨_, h, _⟩
    have h := h rfl
    have : len fcc (fun d => (0.4 : ℝ) - 0 + ((if d = 0 then -1 else 0 : ℤ) : ℝ)) < 5 := by
      unfold len
      rw [Real.sqrt_lt' (by norm_num)]
      simp [dot, mulMV, fcc]; norm_num
    linarith

/-- **Violation.** One atom is accepted in every cell, however close its own images are. -/
theorem C117_self_fails (cond : Cond) (R : Mat ℝ) (x : V3 ℝ) (r : ℝ) : checkPositions cond R [⟨r, [x]⟩] = .ok true := by
  rw [C117_pairs]
  rintro i n x' r' i1 n1 y r1 ⟨sp, h1, h2, h3⟩ ⟨sp1, g1, g2, g3⟩ hr hr1 hlt
  have hi : i = 0 := by
    by_contra hc
    rw [List.getElem?_eq_none (by simp; omega)] at h1; simp at h1
  have hi1 : i1 = 0 := by
    by_contra hc
    rw [List.getElem?_eq_none (by simp; omega)] at g1; simp at g1
  subst hi hi1
  have hlt := hlt rfl
  simp only [List.getElem?_cons_zero, Option.some.injEq] at g1
  subst g1
  rw [List.getElem?_eq_none (by simp; omega)] at g3; simp at g3

/-- **Violation.** Atoms of a pseudopotential without core radius are accepted at any positions, also on top of each other. -/
theorem C117_local_fails (cond : Cond) (R : Mat ℝ) (xs : List (V3 ℝ)) : checkPositions cond R [⟨0, xs⟩] = .ok true := by
  rw [C117_pairs]
  rintro i n x r i1 n1 y r1 ⟨sp, h1, h2, h3⟩ _ hr
  have hi : i = 0 := by
    by_contra hc
    rw [List.getElem?_eq_none (by simp; omega)] at h1; simp at h1
  subst hi
  simp only [List.getElem?_cons_zero, Option.some.injEq] at h1
  subst h1
  exact absurd h2.symm hr

/-! ## Examples -/

/-- A cubic cell of size 10. -/
example : Orthogonal (diag (10 : ℝ) 10 10) := by
  intro c d h
  fin_cases c <;> fin_cases d <;> simp [diag, vec] at h ⊢

/-- Atoms at opposite sides of the boundary of that cell are found. -/
example : checkPositions .vector (diag (10 : ℝ) 10 10) [⟨1, [fun _ => 0.99]⟩, ⟨2, [fun _ => 0.01]⟩] ≠ .ok true := by
  rw [ne_eq, C117_orthogonal_partial _ _ (by intro c d h; fin_cases c <;> fin_cases d <;> simp [diag, vec] at h ⊢)]
  intro h
  have := h 0 0 (fun _ => 0.99) 1 1 0 (fun _ => 0.01) 2 ⟨_, rfl, rfl, rfl⟩ ⟨_, rfl, rfl, rfl⟩ (by norm_num) (by norm_num)
    (by simp) (fun _ => -1)
  have h2 := this.2.2 rfl
  have : len (diag (10 : ℝ) 10 10) (fun _ => (0.99 : ℝ) - 0.01 + ((-1 : ℤ) : ℝ)) < Real.sqrt (1 ^ 2 + 2 ^ 2) := by
    unfold len
    apply Real.sqrt_lt_sqrt
    · simp [dot, mulMV, diag, vec]; norm_num
    · simp [dot, mulMV, diag, vec]; norm_num
  linarith

end Jdftx.Core
