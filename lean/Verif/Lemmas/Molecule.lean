import Verif.Spec.Molecule
import Mathlib.Algebra.BigOperators.Group.List.Basic
import Mathlib.Algebra.BigOperators.Ring.List
import Mathlib.Algebra.Order.AbsoluteValue.Basic
import Mathlib.Tactic.Ring
import Mathlib.Tactic.Linarith
import Mathlib.Tactic.FieldSimp
import Mathlib.Tactic.NormNum
/-! # Lemmas on molecules -/
namespace Jdftx.Mole
open Jdftx.M3
open Classical

theorem charge_sum (sites : List Site) (Q : ℝ) :
    sites.foldl (fun (Q : ℝ) s => Q + s.charge * (s.positions.length : ℝ)) Q = Q + netCharge sites := by
  unfold netCharge
  induction sites generalizing Q with
  | nil => simp
  | cons s l ih => rw [List.foldl_cons, ih, List.map_cons, List.sum_cons]; ring

theorem getCharge_eq (sites : List Site) :
    getCharge sites = if |netCharge sites| < 1 / 10 ^ 12 then 0 else netCharge sites := by
  simp only [getCharge, charge_sum, zero_add]

theorem dipole_sum (sites : List Site) (P : V3 ℝ) (d : Fin 3) :
    sites.foldl (fun P s => s.positions.foldl (fun (P : V3 ℝ) r => fun d => P d + s.charge * r d) P) P d =
      P d + moment sites d := by
  have inner : ∀ (q : ℝ) (l : List (V3 ℝ)) (P : V3 ℝ),
      l.foldl (fun (P : V3 ℝ) r => fun d => P d + q * r d) P d = P d + q * (l.map fun r => r d).sum := by
    intro q l
    induction l with
    | nil => intro P; simp
    | cons r l ih => intro P; rw [List.foldl_cons, ih, List.map_cons, List.sum_cons]; ring
  unfold moment
  induction sites generalizing P with
  | nil => simp
  | cons s l ih => rw [List.foldl_cons, ih, inner, List.map_cons, List.sum_cons]; ring

theorem chargedSite_spec (sites : List Site) (h : netCharge sites ≠ 0) :
    ∃ c s, chargedSite sites = .ok c ∧ sites[c]? = some s ∧ s.charge ≠ 0 ∧ ∀ k < c, ∀ s', sites[k]? = some s' → s'.charge = 0 := by
  induction sites with
  | nil => simp [netCharge] at h
  | cons s l ih =>
    unfold chargedSite
    by_cases hs : s.charge = 0
    · have hl : netCharge l ≠ 0 := by
        intro hl; apply h
        simp only [netCharge, List.map_cons, List.sum_cons, hs] at hl ⊢
        rw [hl]; ring
      obtain ⟨c, s', h1, h2, h3, h4⟩ := ih hl
      rw [if_pos hs, h1]
      refine ⟨c + 1, s', rfl, by simpa using h2, h3, ?_⟩
      intro k hk s'' hk'
      cases k with
      | zero => simp at hk'; rw [← hk']; exact hs
      | succ k => exact h4 k (by omega) s'' (by simpa using hk')
    · rw [if_neg hs]
      exact ⟨0, s, rfl, rfl, hs, by omega⟩

theorem net_modify (sites : List Site) (c : ℕ) (s : Site) (f : Site → Site) (h : sites[c]? = some s) :
    netCharge (sites.modify c f) = netCharge sites - s.charge * s.positions.length +
      (f s).charge * (f s).positions.length := by
  unfold netCharge
  induction sites generalizing c with
  | nil => simp at h
  | cons a l ih =>
    cases c with
    | zero =>
      simp only [List.getElem?_cons_zero, Option.some.injEq] at h
      subst h
      simp only [List.modify_zero_cons, List.map_cons, List.sum_cons]; ring
    | succ c =>
      simp only [List.getElem?_cons_succ] at h
      simp only [List.modify_succ_cons, List.map_cons, List.sum_cons]
      rw [ih c h]; ring

/-- All ordered pairs are twice the unordered ones. -/
theorem count_ordered {A : Type} (p : A → A → Prop) (hs : ∀ a b, p a b ↔ p b a) (l : List A) (hd : ∀ a ∈ l, ¬ p a a) :
    (l.map fun a => l.countP fun b => p a b).sum = 2 * countPairs p l := by
  induction l with
  | nil => rfl
  | cons a l ih =>
    have ih := ih fun b hb => hd b (by simp [hb])
    have ha : ¬ p a a := hd a (by simp)
    have hcol : ∀ m : List A, (m.map fun b => if p b a then 1 else 0).sum = m.countP fun b => p a b := by
      intro m
      induction m with
      | nil => rfl
      | cons b m ihm =>
        rw [List.map_cons, List.sum_cons, ihm, List.countP_cons]
        by_cases h : p a b
        · rw [if_pos ((hs a b).mp h)]; simp [h]; omega
        · rw [if_neg (fun h' => h ((hs a b).mpr h'))]; simp [h]
    have hrest : (l.map fun b => (a :: l).countP fun c => p b c).sum =
        (l.map fun b => l.countP fun c => p b c).sum + l.countP fun b => p a b := by
      rw [← hcol l, ← List.sum_map_add]
      congr 1
      refine List.map_congr_left fun b _ => ?_
      rw [List.countP_cons]; simp
    rw [List.map_cons, List.sum_cons, hrest, ih, List.countP_cons]
    simp only [ha, decide_false, countPairs]
    simp
    omega

theorem length_symm (p q : V3 ℝ) : length (fun d => p d - q d) = length fun d => q d - p d := by
  unfold length; congr 1; simp only [dot]; ring

theorem bond_symm (key : ℝ) (a b : ℝ × V3 ℝ) : Bond key a b ↔ Bond key b a := by
  have h := length_symm a.2 b.2
  unfold length at h
  unfold Bond
  rw [h, add_comm a.1 b.1, mul_comm a.1 b.1]

theorem bond_self (key : ℝ) (a : ℝ × V3 ℝ) : ¬ Bond key a a := by
  rintro ⟨h, _⟩
  have e : Real.sqrt (dot (fun d => a.2 d - a.2 d) (fun d => a.2 d - a.2 d)) = 0 := by simp [dot]
  rw [e, sub_zero] at h
  have h1 := le_abs_self (a.1 + a.1)
  have h2 := abs_nonneg (a.1 + a.1)
  nlinarith

theorem visits_count (sites : List Site) (key : ℝ) :
    (bondVisits sites).count key =
      ((spheres sites).map fun a => (spheres sites).countP fun b => Bond key a b).sum := by
  have inner : ∀ (R1 : ℝ) (p1 : V3 ℝ) (l : List Site),
      (l.flatMap fun s2 => if s2.Rhs = 0 then [] else s2.positions.flatMap fun p2 =>
        if touches R1 s2.Rhs p1 p2 then [R1 * s2.Rhs / (R1 + s2.Rhs)] else []).count key =
      (spheres l).countP fun b => Bond key (R1, p1) b := by
    intro R1 p1 l
    induction l with
    | nil => rfl
    | cons s l ih =>
      have e : spheres (s :: l) = (if s.Rhs = 0 then [] else s.positions.map fun p => (s.Rhs, p)) ++ spheres l := by
        unfold spheres
        rw [List.flatMap_cons, List.filter_append]
        congr 1
        by_cases h : s.Rhs = 0
        · rw [if_pos h]; simp [List.filter_eq_nil_iff, h]
        · rw [if_neg h]; simp [List.filter_eq_self, h]
      rw [List.flatMap_cons, List.count_append, ih, e, List.countP_append]
      congr 1
      by_cases h : s.Rhs = 0
      · simp [h]
      · rw [if_neg h, if_neg h]
        induction s.positions with
        | nil => rfl
        | cons p m ihm =>
          rw [List.flatMap_cons, List.count_append, ihm, List.map_cons, List.countP_cons, add_comm]
          congr 1
          have hb : Bond key (R1, p1) (s.Rhs, p) ↔ touches R1 s.Rhs p1 p ∧ R1 * s.Rhs / (R1 + s.Rhs) = key := Iff.rfl
          by_cases ht : touches R1 s.Rhs p1 p
          · by_cases hk : R1 * s.Rhs / (R1 + s.Rhs) = key
            · simp [hb, ht, hk]
            · simp [hb, ht, hk]
          · simp [hb, ht]
  have outer : ∀ l : List Site,
      (l.flatMap fun s1 => if s1.Rhs = 0 then [] else s1.positions.flatMap fun p1 =>
        sites.flatMap fun s2 => if s2.Rhs = 0 then [] else s2.positions.flatMap fun p2 =>
          if touches s1.Rhs s2.Rhs p1 p2 then [s1.Rhs * s2.Rhs / (s1.Rhs + s2.Rhs)] else []).count key =
      ((spheres l).map fun a => (spheres sites).countP fun b => Bond key a b).sum := by
    intro l
    induction l with
    | nil => rfl
    | cons s l ih =>
      have e : spheres (s :: l) = (if s.Rhs = 0 then [] else s.positions.map fun p => (s.Rhs, p)) ++ spheres l := by
        unfold spheres
        rw [List.flatMap_cons, List.filter_append]
        congr 1
        by_cases h : s.Rhs = 0
        · rw [if_pos h]; simp [List.filter_eq_nil_iff, h]
        · rw [if_neg h]; simp [List.filter_eq_self, h]
      rw [List.flatMap_cons, List.count_append, ih, e, List.map_append, List.sum_append]
      congr 1
      by_cases h : s.Rhs = 0
      · simp [h]
      · rw [if_neg h, if_neg h]
        induction s.positions with
        | nil => rfl
        | cons p m ihm =>
          rw [List.flatMap_cons, List.count_append, ihm, inner, List.map_cons, List.map_cons, List.sum_cons]
  exact outer sites

end Jdftx.Mole
