import Verif.Spec.FindGroup
import Verif.Props.PeriodicLookup
import Verif.Props.SpaceGroup
import Mathlib.Algebra.Order.Floor.Ring
import Mathlib.Algebra.Order.BigOperators.Group.Finset
import Mathlib.Algebra.BigOperators.Field
import Mathlib.Analysis.Real.Pi.Bounds
import Mathlib.Tactic.Linarith
import Mathlib.Tactic.LinearCombination

/-!
# Lemmas for C90
-/
namespace Jdftx.FindGroup
open Jdftx.M3 Jdftx.PL
noncomputable section
open Classical

/-! ### Vectors near lattice vectors -/

theorem NearLattice.mono {δ ε : ℝ} {v : V3 ℝ} (h : NearLattice δ v) (hle : δ ≤ ε) : NearLattice ε v := by
  obtain ⟨n, hn⟩ := h
  exact ⟨n, fun k => lt_of_lt_of_le (hn k) hle⟩

theorem NearLattice.add {δ ε : ℝ} {v w : V3 ℝ} (h : NearLattice δ v) (g : NearLattice ε w) :
    NearLattice (δ + ε) fun k => v k + w k := by
  obtain ⟨n, hn⟩ := h
  obtain ⟨m, hm⟩ := g
  refine ⟨fun k => n k + m k, fun k => ?_⟩
  have e : v k + w k - ((n k + m k : Int) : ℝ) = (v k - n k) + (w k - m k) := by push_cast; ring
  rw [e]
  exact lt_of_le_of_lt (abs_add_le _ _) (add_lt_add (hn k) (hm k))

theorem NearLattice.neg {δ : ℝ} {v : V3 ℝ} (h : NearLattice δ v) : NearLattice δ fun k => - v k := by
  obtain ⟨n, hn⟩ := h
  refine ⟨fun k => - n k, fun k => ?_⟩
  have e : - v k - ((- n k : Int) : ℝ) = -(v k - n k) := by push_cast; ring
  rw [e, abs_neg]
  exact hn k

theorem NearLattice.congr {δ : ℝ} {v w : V3 ℝ} (h : NearLattice δ v) (hw : ∃ n : V3 Int, ∀ k, w k = v k + n k) :
    NearLattice δ w := by
  obtain ⟨n, hn⟩ := h
  obtain ⟨m, hm⟩ := hw
  refine ⟨fun k => n k + m k, fun k => ?_⟩
  have e : w k - ((n k + m k : Int) : ℝ) = v k - n k := by rw [hm k]; push_cast; ring
  rw [e]; exact hn k

theorem NearLattice.eq {δ : ℝ} {v w : V3 ℝ} (h : NearLattice δ v) (hw : ∀ k, w k = v k) : NearLattice δ w := by
  have : w = v := funext hw
  rw [this]; exact h

theorem near_zero {δ : ℝ} (h : 0 < δ) : NearLattice δ fun _ => 0 := ⟨fun _ => 0, fun k => by simpa using h⟩

theorem mulMV_apply (m : Mat ℝ) (v : V3 ℝ) (i : Fin 3) : mulMV m v i = m i 0 * v 0 + m i 1 * v 1 + m i 2 * v 2 := by
  unfold mulMV; ring

theorem mulMV_sub (m : Mat ℝ) (v w : V3 ℝ) (i : Fin 3) : mulMV m (fun k => v k - w k) i = mulMV m v i - mulMV m w i := by
  simp only [mulMV_apply]; ring

theorem mulMV_cast_int (M : Mat Int) (n : V3 Int) (i : Fin 3) :
    mulMV (castMat M) (fun k => (n k : ℝ)) i = ((M i 0 * n 0 + M i 1 * n 1 + M i 2 * n 2 : Int) : ℝ) := by
  simp only [mulMV_apply, castMat]; push_cast; ring

theorem mulMV_bound {M : Mat Int} {κ δ : ℝ} (hM : ∀ i, |(M i 0 : ℝ)| + |(M i 1 : ℝ)| + |(M i 2 : ℝ)| ≤ κ) {v : V3 ℝ}
    (hδ : 0 ≤ δ) (hv : ∀ k, |v k| ≤ δ) (i : Fin 3) : |mulMV (castMat M) v i| ≤ κ * δ := by
  rw [mulMV_apply]
  simp only [castMat]
  have h0 := abs_mul (M i 0 : ℝ) (v 0)
  have h1 := abs_mul (M i 1 : ℝ) (v 1)
  have h2 := abs_mul (M i 2 : ℝ) (v 2)
  have t : |(M i 0 : ℝ) * v 0 + (M i 1 : ℝ) * v 1 + (M i 2 : ℝ) * v 2| ≤ |(M i 0 : ℝ) * v 0| + |(M i 1 : ℝ) * v 1| + |(M i 2 : ℝ) * v 2| :=
    (abs_add_le _ _).trans (by gcongr; exact abs_add_le _ _)
  have b0 := mul_le_mul_of_nonneg_left (hv 0) (abs_nonneg (M i 0 : ℝ))
  have b1 := mul_le_mul_of_nonneg_left (hv 1) (abs_nonneg (M i 1 : ℝ))
  have b2 := mul_le_mul_of_nonneg_left (hv 2) (abs_nonneg (M i 2 : ℝ))
  have := mul_le_mul_of_nonneg_right (hM i) hδ
  nlinarith

theorem NearLattice.rot {M : Mat Int} {κ δ : ℝ} (hδ : 0 < δ) (hM : ∀ i, |(M i 0 : ℝ)| + |(M i 1 : ℝ)| + |(M i 2 : ℝ)| ≤ κ)
    {v : V3 ℝ} (h : NearLattice δ v) {ε : ℝ} (hε : κ * δ < ε) : NearLattice ε (mulMV (castMat M) v) := by
  obtain ⟨n, hn⟩ := h
  refine ⟨fun i => M i 0 * n 0 + M i 1 * n 1 + M i 2 * n 2, fun i => ?_⟩
  rw [← mulMV_cast_int, ← mulMV_sub]
  exact lt_of_le_of_lt (mulMV_bound hM hδ.le (fun k => (hn k).le) i) hε

/-! ### Wrapping -/

theorem wrapHalf_int (v : V3 ℝ) : ∃ n : V3 Int, ∀ k, wrapHalf v k = v k - n k := ⟨fun k => Int.floor (0.5 + v k), fun _ => rfl⟩

theorem wrapHalf_near {δ : ℝ} (hδ : δ ≤ 1 / 2) {v : V3 ℝ} (h : NearLattice δ v) : ∀ k, |wrapHalf v k| < δ := by
  obtain ⟨n, hn⟩ := h
  intro k
  have hk := abs_lt.1 (hn k)
  have e : Int.floor (0.5 + v k) = n k := by
    rw [Int.floor_eq_iff]
    constructor <;> norm_num <;> linarith
  unfold wrapHalf
  rw [e]
  exact hn k

theorem wrapHalf_small (v : V3 ℝ) (k : Fin 3) : |wrapHalf v k| ≤ 1 / 2 := by
  unfold wrapHalf
  have h1 := Int.floor_le (0.5 + v k)
  have h2 := Int.lt_floor_add_one (0.5 + v k)
  generalize (Int.floor (0.5 + v k) : ℝ) = f at h1 h2 ⊢
  rw [abs_le]
  constructor <;> linarith

theorem wrapHalf_eq {v w : V3 ℝ} (k : Fin 3) (n : Int) (h : v k = w k + n) (hw : |w k| < 1 / 2) : wrapHalf v k = w k := by
  have hk := abs_lt.1 hw
  have e : Int.floor (0.5 + v k) = n := by
    rw [Int.floor_eq_iff, h]
    constructor <;> norm_num <;> linarith
  unfold wrapHalf
  rw [e, h]; ring

/-! ### Coincidence -/

theorem coincide_near {thr : ℝ} (hthr : 0 < thr) {a b : V3 ℝ} (h : Coincide thr a b) : NearLattice (thr / 4) fun k => a k - b k :=
  (C30_coincide thr hthr a b).1 h

theorem two_pi_sqrt3 : 2 * Real.pi * Real.sqrt 3 < 11 := by
  have h1 := Real.pi_lt_d4
  have h2 : Real.sqrt 3 < 1.7321 := by
    rw [Real.sqrt_lt' (by norm_num)]; norm_num
  have h3 := Real.pi_pos
  nlinarith [Real.sqrt_nonneg 3]

theorem near_coincide {thr : ℝ} (hthr : 0 < thr) {a b : V3 ℝ} (h : NearLattice (thr / 11) fun k => a k - b k) : Coincide thr a b := by
  refine (C30_coincide thr hthr a b).2 ?_
  obtain ⟨n, hn⟩ := h
  refine ⟨n, fun k => lt_of_lt_of_le (hn k) ?_⟩
  have h3 : (0 : ℝ) < Real.sqrt 3 := Real.sqrt_pos.2 (by norm_num)
  have := Real.pi_pos
  exact div_le_div_of_nonneg_left hthr.le (by positivity) two_pi_sqrt3.le

theorem coincide_self {thr : ℝ} (hthr : 0 < thr) (a : V3 ℝ) : Coincide thr a a :=
  near_coincide hthr ((near_zero (by positivity)).eq fun k => sub_self _)

theorem near_of_congr {δ : ℝ} {a b a' b' : V3 ℝ} (h : NearLattice δ fun k => a k - b k) (ha : ∃ n : V3 Int, ∀ k, a' k = a k - n k)
    (hb : ∃ n : V3 Int, ∀ k, b' k = b k - n k) : NearLattice δ fun k => a' k - b' k := by
  obtain ⟨n, hn⟩ := ha
  obtain ⟨m, hm⟩ := hb
  exact h.congr ⟨fun k => m k - n k, fun k => by rw [hn, hm]; push_cast; ring⟩

/-- The lookup in the list of offsets. -/
theorem lookup1 {thr : ℝ} (hthr : 0 < thr) (hs : thr < 0.5) (pts : List (V3 ℝ)) (v : V3 ℝ) :
    ∃ r, lookup thr (vec 1 1 1) pts (fun _ => True) v = .ok r ∧ (r ≠ none ↔ ∃ p ∈ pts, Coincide thr v p) := by
  obtain ⟨r, h1, h2, h3⟩ := C30_lookup thr hthr (vec 1 1 1) (by intro k; match k with | 0 | 1 | 2 => simp [vec])
    (by intro k; match k with | 0 | 1 | 2 => simpa [vec] using hs) pts (fun _ => True) v
  refine ⟨r, h1, ?_, ?_⟩
  · intro hr
    obtain ⟨i, hi⟩ := Option.ne_none_iff_exists'.1 hr
    obtain ⟨p, hp, hc, _⟩ := h2 i hi
    exact ⟨p, List.mem_of_getElem? hp, hc⟩
  · rintro ⟨p, hp, hc⟩ hr
    obtain ⟨i, hi⟩ := List.getElem?_of_mem hp
    exact h3.1 hr i p hi ⟨hc, trivial⟩

/-! ### Candidate offsets -/

variable {c : Cfg} {sp : Species} {rot : Mat Int}

theorem candLoop_spec (hthr : 0 < c.thr) (hs : c.thr < 0.5) (a1 : Nat) (l : List Nat) (acc : List (V3 ℝ))
    (hacc : acc.Pairwise fun x y => ¬Coincide c.thr y x) :
    ∃ r, candLoop c sp rot a1 l acc = .ok r ∧
      (∀ x ∈ r, x ∈ acc ∨ ∃ a2 ∈ l, admissible c sp rot a1 a2 ∧ x = wrapHalf (offset sp rot a1 a2)) ∧
      (∀ x ∈ acc, x ∈ r) ∧
      (∀ a2 ∈ l, admissible c sp rot a1 a2 → ∃ x ∈ r, Coincide c.thr (wrapHalf (offset sp rot a1 a2)) x) ∧
      r.Pairwise fun x y => ¬Coincide c.thr y x := by
  induction l generalizing acc with
  | nil => exact ⟨acc, rfl, fun x hx => .inl hx, fun x hx => hx, by simp, hacc⟩
  | cons a2 l ih =>
    unfold candLoop
    by_cases hadm : admissible c sp rot a1 a2
    · rw [if_pos hadm]
      obtain ⟨r, e, hr⟩ := lookup1 hthr hs acc (wrapHalf (offset sp rot a1 a2))
      simp only [e]
      cases r with
      | none =>
        simp only [ne_eq, not_true, false_iff] at hr
        obtain ⟨r', e', h1, h2, h3, h4⟩ := ih (acc ++ [wrapHalf (offset sp rot a1 a2)]) (by
          rw [List.pairwise_append]
          refine ⟨hacc, List.pairwise_singleton _ _, fun x hx y hy => ?_⟩
          rw [List.mem_singleton] at hy
          subst hy
          exact fun h => hr ⟨x, hx, h⟩)
        refine ⟨r', e', fun x hx => ?_, fun x hx => h2 x (List.mem_append_left _ hx), fun b hb hadb => ?_, h4⟩
        · rcases h1 x hx with h | ⟨b, hb, h⟩
          · rcases List.mem_append.1 h with h | h
            · exact .inl h
            · exact .inr ⟨a2, List.mem_cons_self, hadm, List.mem_singleton.1 h⟩
          · exact .inr ⟨b, List.mem_cons_of_mem _ hb, h⟩
        · rcases List.mem_cons.1 hb with rfl | hb
          · exact ⟨_, h2 _ (List.mem_append_right _ List.mem_cons_self), coincide_self hthr _⟩
          · exact h3 b hb hadb
      | some i =>
        obtain ⟨r', e', h1, h2, h3, h4⟩ := ih acc hacc
        refine ⟨r', e', fun x hx => ?_, h2, fun b hb hadb => ?_, h4⟩
        · rcases h1 x hx with h | ⟨b, hb, h⟩
          · exact .inl h
          · exact .inr ⟨b, List.mem_cons_of_mem _ hb, h⟩
        · rcases List.mem_cons.1 hb with rfl | hb
          · obtain ⟨p, hp, hc⟩ := hr.1 (by simp)
            exact ⟨p, h2 p hp, hc⟩
          · exact h3 b hb hadb
    · rw [if_neg hadm]
      obtain ⟨r', e', h1, h2, h3, h4⟩ := ih acc hacc
      refine ⟨r', e', fun x hx => ?_, h2, fun b hb hadb => ?_, h4⟩
      · rcases h1 x hx with h | ⟨b, hb, h⟩
        · exact .inl h
        · exact .inr ⟨b, List.mem_cons_of_mem _ hb, h⟩
      · rcases List.mem_cons.1 hb with rfl | hb
        · exact absurd hadb hadm
        · exact h3 b hb hadb

/-- The list of candidate offsets of an atom. -/
structure CandSpec (c : Cfg) (sp : Species) (rot : Mat Int) (a1 : Nat) (r : List (V3 ℝ)) : Prop where
  sound : ∀ x ∈ r, ∃ a2 < sp.n, admissible c sp rot a1 a2 ∧ x = wrapHalf (offset sp rot a1 a2)
  complete : ∀ a2 < sp.n, admissible c sp rot a1 a2 → ∃ x ∈ r, Coincide c.thr (wrapHalf (offset sp rot a1 a2)) x
  distinct : r.Pairwise fun x y => ¬Coincide c.thr y x

theorem candidates_spec (hthr : 0 < c.thr) (hs : c.thr < 0.5) (a1 : Nat) :
    ∃ r, candidates c sp rot a1 = .ok r ∧ CandSpec c sp rot a1 r := by
  obtain ⟨r, e, h1, h2, h3, h4⟩ := candLoop_spec (sp := sp) (rot := rot) hthr hs a1 (List.range sp.n) [] List.Pairwise.nil
  refine ⟨r, e, fun x hx => ?_, fun a2 ha h => h3 a2 (List.mem_range.2 ha) h, h4⟩
  rcases h1 x hx with h | ⟨b, hb, h⟩
  · exact absurd h (by simp)
  · exact ⟨b, List.mem_range.1 hb, h⟩

/-- The offset is among the candidates of the atom. -/
def Hit (c : Cfg) (rot : Mat Int) (sp : Species) (a1 : Nat) (t : V3 ℝ) : Prop :=
  ∃ r, candidates c sp rot a1 = .ok r ∧ ∃ x ∈ r, Coincide c.thr t x

theorem keep_spec (hthr : 0 < c.thr) (hs : c.thr < 0.5) (a1 : Nat) (aCur : List (V3 ℝ)) (h : candidates c sp rot a1 = .ok aCur)
    (l : List (V3 ℝ)) : keep c.thr aCur l = .ok (l.filter fun t => Hit c rot sp a1 t) := by
  induction l with
  | nil => rfl
  | cons a l ih =>
    obtain ⟨r, e, hr⟩ := lookup1 hthr hs aCur a
    unfold keep
    simp only [e, ih]
    have hh : Hit c rot sp a1 a ↔ r ≠ none := by
      rw [hr]
      constructor
      · rintro ⟨r', h', hx⟩
        rw [h] at h'
        cases h'
        exact hx
      · intro hx; exact ⟨aCur, h, hx⟩
    by_cases hn : r = none
    · rw [if_pos hn, List.filter_cons_of_neg]
      simp [hh, hn]
    · rw [if_neg hn, List.filter_cons_of_pos]
      simp [hh, hn]

theorem filter_nil_of {α : Type} {p q : α → Bool} {l : List α} (h : l.filter p = []) (hpq : ∀ t, q t = true → p t = true) :
    l.filter q = [] := by
  rw [List.filter_eq_nil_iff] at h ⊢
  intro t ht hq
  exact h t ht (hpq t hq)

theorem atomLoop_some (hthr : 0 < c.thr) (hs : c.thr < 0.5) (l : List Nat) (arr : List (V3 ℝ)) :
    atomLoop c sp rot l (some arr) = .ok (some (arr.filter fun t => ∀ a1 ∈ l, Hit c rot sp a1 t)) := by
  induction l generalizing arr with
  | nil => simp [atomLoop]
  | cons a1 l ih =>
    obtain ⟨r, e, hr⟩ := candidates_spec (sp := sp) (rot := rot) hthr hs a1
    have hk : (if r = [] then (.ok [] : Res (List (V3 ℝ))) else keep c.thr r arr) = .ok (arr.filter fun t => Hit c rot sp a1 t) := by
      by_cases hn : r = []
      · rw [if_pos hn]
        congr 1
        symm
        rw [List.filter_eq_nil_iff]
        intro t _ ht
        obtain ⟨r', h', x, hx, _⟩ := of_decide_eq_true ht
        rw [e] at h'
        cases h'
        rw [hn] at hx
        simp at hx
      · rw [if_neg hn, keep_spec hthr hs a1 r e]
    unfold atomLoop
    simp only [e, hk]
    by_cases hnil : (arr.filter fun t => Hit c rot sp a1 t) = []
    · rw [if_pos hnil]
      congr 2
      symm
      exact filter_nil_of hnil fun t ht => decide_eq_true (of_decide_eq_true ht a1 List.mem_cons_self)
    · rw [if_neg hnil, ih, List.filter_filter]
      congr 2
      refine List.filter_congr fun t _ => ?_
      rw [← Bool.decide_and]
      exact decide_eq_decide.2 ⟨fun h b hb => by
        rcases List.mem_cons.1 hb with rfl | hb
        · exact h.2
        · exact h.1 b hb, fun h => ⟨fun b hb => h b (List.mem_cons_of_mem _ hb), h a1 List.mem_cons_self⟩⟩

theorem speciesLoop_some (hthr : 0 < c.thr) (hs : c.thr < 0.5) (l : List Species) (arr : List (V3 ℝ)) :
    speciesLoop c rot l (some arr) = .ok (some (arr.filter fun t => ∀ sp ∈ l, ∀ a1 < sp.n, Hit c rot sp a1 t)) := by
  induction l generalizing arr with
  | nil => simp [speciesLoop]
  | cons sp l ih =>
    unfold speciesLoop
    rw [atomLoop_some hthr hs]
    simp only [reduceCtorEq, Option.some.injEq, false_or]
    by_cases hnil : (arr.filter fun t => ∀ a1 ∈ List.range sp.n, Hit c rot sp a1 t) = []
    · rw [if_pos hnil, hnil]
      congr 2
      symm
      exact filter_nil_of hnil fun t ht => decide_eq_true fun a1 ha =>
        of_decide_eq_true ht sp List.mem_cons_self a1 (List.mem_range.1 ha)
    · rw [if_neg hnil, ih, List.filter_filter]
      congr 2
      refine List.filter_congr fun t _ => ?_
      rw [← Bool.decide_and]
      exact decide_eq_decide.2 ⟨fun h s hs' => by
        rcases List.mem_cons.1 hs' with rfl | hs'
        · exact fun a ha => h.2 a (List.mem_range.2 ha)
        · exact h.1 s hs', fun h => ⟨fun b hb => h b (List.mem_cons_of_mem _ hb), fun a ha => h sp List.mem_cons_self a (List.mem_range.1 ha)⟩⟩

/-- The offsets found for a rotation when the first species is used: the candidates of its first atom that are candidates of
every atom. -/
theorem speciesLoop_first (hthr : 0 < c.thr) (hs : c.thr < 0.5) (sp : Species) (l : List Species) (hn : 0 < sp.n) :
    ∃ r0, candidates c sp rot 0 = .ok r0 ∧ speciesLoop c rot (sp :: l) none
      = .ok (some (r0.filter fun t => ∀ s ∈ sp :: l, ∀ a1 < s.n, Hit c rot s a1 t)) := by
  obtain ⟨r0, e, hr⟩ := candidates_spec (sp := sp) (rot := rot) hthr hs 0
  refine ⟨r0, e, ?_⟩
  have self : ∀ t ∈ r0, Hit c rot sp 0 t := fun t ht => ⟨r0, e, t, ht, coincide_self hthr t⟩
  have e0 : atomLoop c sp rot (List.range sp.n) none = atomLoop c sp rot (List.range sp.n) (some r0) ∨
      atomLoop c sp rot (List.range sp.n) none = .ok (some (r0.filter fun t => ∀ a1 ∈ List.range sp.n, Hit c rot sp a1 t)) := by
    right
    obtain ⟨m, hm⟩ : ∃ m, sp.n = m + 1 := ⟨sp.n - 1, by omega⟩
    rw [hm, List.range_succ_eq_map]
    rw [atomLoop]
    simp only [e]
    rw [atomLoop_some hthr hs]
    congr 2
    refine List.filter_congr fun t ht => decide_eq_decide.2 ⟨fun h b hb => ?_, fun h b hb => h b (List.mem_cons_of_mem _ hb)⟩
    rcases List.mem_cons.1 hb with rfl | hb
    · exact self t ht
    · exact h b hb
  have e1 : atomLoop c sp rot (List.range sp.n) none = atomLoop c sp rot (List.range sp.n) (some r0) := by
    rcases e0 with h | h
    · exact h
    · rw [h, atomLoop_some hthr hs]
  rw [← speciesLoop_some hthr hs]
  unfold speciesLoop
  rw [e1]

/-! ### Refinement -/

variable {rots : List (Mat Int)} {κ : ℝ}

theorem Sharp.kappa (h : Sharp c rots κ) (hg : PointGroup rots) : 0 ≤ κ := by
  refine le_trans ?_ (h.rowSum _ hg.one 0)
  positivity

theorem Sharp.thr_half (h : Sharp c rots κ) (hg : PointGroup rots) : c.thr < 0.5 := by
  have := h.kappa hg
  have := h.thr_small
  have := h.thr_pos
  norm_num
  nlinarith

theorem Sharp.thr_le (h : Sharp c rots κ) (hg : PointGroup rots) : c.thr ≤ (κ + 1) * c.thr := by
  have := h.kappa hg
  have := h.thr_pos
  nlinarith

/-- An offset that works for all atoms, with the images of the atoms. -/
structure Images (c : Cfg) (rot : Mat Int) (t : V3 ℝ) (g : Species → Nat → Nat) : Prop where
  lt : ∀ sp ∈ c.species, ∀ a < sp.n, g sp a < sp.n
  adm : ∀ sp ∈ c.species, ∀ a < sp.n, admissible c sp rot a (g sp a)
  near : ∀ sp ∈ c.species, ∀ a < sp.n, NearLattice (c.thr / 22) fun k => offset sp rot a (g sp a) k - t k
  small : ∀ k, |t k| ≤ 1 / 2

/-- Correction for one atom. -/
def corr (rot : Mat Int) (t : V3 ℝ) (g : Species → Nat → Nat) (sp : Species) (a : Nat) : V3 ℝ :=
  wrapHalf fun k => offset sp rot a (g sp a) k - t k

/-- Sum over all atoms. -/
def atomSum (l : List Species) (f : Species → Nat → ℝ) : ℝ := (l.map fun sp => ∑ a ∈ Finset.range sp.n, f sp a).sum

theorem sum_list_range (n : Nat) (f : Nat → ℝ) : ((List.range n).map f).sum = ∑ a ∈ Finset.range n, f a := by
  induction n with
  | zero => simp
  | succ n ih => rw [List.range_succ, List.map_append, List.sum_append, ih, Finset.sum_range_succ]; simp

theorem lookup_atom (hthr : 0 < c.thr) (hS : (∀ k, 0 < sp.S k) ∧ ∀ k, c.thr * sp.S k < 0.5) (tag : Nat → Prop) (v : V3 ℝ) :
    ∃ r, lookup c.thr sp.S ((List.range sp.n).map sp.pos) tag v = .ok r ∧
      (∀ b, r = some b → b < sp.n ∧ Coincide c.thr v (sp.pos b) ∧ tag b) ∧
      (∀ b < sp.n, Coincide c.thr v (sp.pos b) → tag b → r ≠ none) := by
  obtain ⟨r, h1, h2, h3⟩ := C30_lookup c.thr hthr sp.S hS.1 hS.2 ((List.range sp.n).map sp.pos) tag v
  refine ⟨r, h1, fun b hb => ?_, fun b hb hc ht hr => ?_⟩
  · obtain ⟨p, hp, hc, ht⟩ := h2 b hb
    rw [List.getElem?_map] at hp
    by_cases hlt : b < sp.n
    · rw [List.getElem?_range hlt] at hp
      simp only [Option.map_some, Option.some.injEq] at hp
      subst hp
      exact ⟨hlt, hc, ht⟩
    · rw [List.getElem?_eq_none (by simpa using hlt)] at hp
      simp at hp
  · exact h3.1 hr b (sp.pos b) (by rw [List.getElem?_map, List.getElem?_range hb]; rfl) ⟨hc, ht⟩

/-- The image of an atom is the only atom nearby. -/
theorem image_unique (h : Sharp c rots κ) (hsp : sp ∈ c.species) {a b : Nat} (ha : a < sp.n) (hb : b < sp.n)
    {v : V3 ℝ} {δ ε : ℝ} (h1 : NearLattice δ fun k => v k - sp.pos a k) (h2 : NearLattice ε fun k => v k - sp.pos b k)
    (hle : δ + ε ≤ (κ + 1) * c.thr) : a = b := by
  refine h.separated sp hsp a ha b hb (((h1.neg.add h2).mono hle).eq fun k => by ring)

theorem refineLoop_spec (h : Sharp c rots κ) (hg : PointGroup rots) (hm : MeshOk c) {t : V3 ℝ} {g : Species → Nat → Nat}
    (hi : Images c rot t g) (hsp : sp ∈ c.species) (l : List Nat) (hl : ∀ a ∈ l, a < sp.n) (s : V3 ℝ) :
    refineLoop c sp rot t l s = .ok fun k => s k + (l.map fun a => corr rot t g sp a k).sum := by
  induction l generalizing s with
  | nil => simp [refineLoop]
  | cons a l ih =>
    have ha := hl a List.mem_cons_self
    have hthr := h.thr_pos
    obtain ⟨r, e, h1, h2⟩ := lookup_atom hthr (hm sp hsp) (momOk c sp rot a) (fun k => mulMV (castMat rot) (sp.pos a) k + t k)
    have hnear : NearLattice (c.thr / 22) fun k => (mulMV (castMat rot) (sp.pos a) k + t k) - sp.pos (g sp a) k :=
      (hi.near sp hsp a ha).neg.eq fun k => by simp only [offset]; ring
    have hne := h2 (g sp a) (hi.lt sp hsp a ha) (near_coincide hthr (hnear.mono (by linarith))) (hi.adm sp hsp a ha).1
    obtain ⟨b, rfl⟩ := Option.ne_none_iff_exists'.1 hne
    obtain ⟨hb, hc, _⟩ := h1 b rfl
    have hbg : b = g sp a := by
      refine image_unique h hsp hb (hi.lt sp hsp a ha) (coincide_near hthr hc) hnear ?_
      have := h.thr_le hg
      linarith
    subst hbg
    unfold refineLoop
    simp only [e]
    rw [ih fun a ha => hl a (List.mem_cons_of_mem _ ha)]
    congr 1
    funext k
    rw [List.map_cons, List.sum_cons]
    have : corr rot t g sp a k = wrapHalf (fun k => sp.pos (g sp a) k - (mulMV (castMat rot) (sp.pos a) k + t k)) k := by
      unfold corr
      congr 1
      funext k
      simp only [offset]; ring
    rw [this]; ring

theorem refineSum_spec (h : Sharp c rots κ) (hg : PointGroup rots) (hm : MeshOk c) {t : V3 ℝ} {g : Species → Nat → Nat}
    (hi : Images c rot t g) (l : List Species) (hl : ∀ sp ∈ l, sp ∈ c.species) (s : V3 ℝ) :
    refineSum c rot t l s = .ok fun k => s k + atomSum l fun sp a => corr rot t g sp a k := by
  induction l generalizing s with
  | nil => simp [refineSum, atomSum]
  | cons sp l ih =>
    unfold refineSum
    rw [refineLoop_spec h hg hm hi (hl sp List.mem_cons_self) (List.range sp.n) (fun a ha => List.mem_range.1 ha)]
    simp only
    rw [ih fun sp hsp => hl sp (List.mem_cons_of_mem _ hsp)]
    congr 1
    funext k
    unfold atomSum
    rw [List.map_cons, List.sum_cons, sum_list_range]
    ring

/-- A refined operation with the offset it was refined from and the images of the atoms. -/
structure Good (c : Cfg) (op : Op ℝ) (t : V3 ℝ) (g : Species → Nat → Nat) : Prop extends Images c op.rot t g where
  a_eq : ∀ k, op.a k = t k + (atomSum c.species fun sp a => corr op.rot t g sp a k) / (nAtoms c.species : ℝ)

theorem refine_spec (h : Sharp c rots κ) (hg : PointGroup rots) (hm : MeshOk c) (l : List (V3 ℝ))
    (hl : ∀ t ∈ l, ∃ g, Images c rot t g) :
    ∃ ops, refine c rot l = .ok ops ∧ List.Forall₂ (fun t op => op.rot = rot ∧ ∃ g, Good c op t g) l ops := by
  induction l with
  | nil => exact ⟨[], rfl, List.Forall₂.nil⟩
  | cons t l ih =>
    obtain ⟨g, hi⟩ := hl t List.mem_cons_self
    obtain ⟨ops, e, hf⟩ := ih fun t ht => hl t (List.mem_cons_of_mem _ ht)
    unfold refine
    rw [refineSum_spec h hg hm hi c.species fun _ h => h]
    simp only [e]
    refine ⟨_, rfl, List.Forall₂.cons ⟨rfl, g, ⟨hi, fun k => ?_⟩⟩ hf⟩
    simp only [zero_add]

theorem atomSum_bound (l : List Species) (f : Species → Nat → ℝ) (δ : ℝ) (h : ∀ sp ∈ l, ∀ a < sp.n, |f sp a| < δ) (hn : 0 < nAtoms l) :
    |atomSum l f / (nAtoms l : ℝ)| < δ := by
  have key : ∀ l : List Species, (∀ sp ∈ l, ∀ a < sp.n, |f sp a| < δ) →
      |atomSum l f| ≤ nAtoms l * δ ∧ (0 < nAtoms l → |atomSum l f| < nAtoms l * δ) := by
    intro l
    induction l with
    | nil => intro _; simp [atomSum, nAtoms]
    | cons sp l ih =>
      intro h
      obtain ⟨i1, i2⟩ := ih fun s hs => h s (List.mem_cons_of_mem _ hs)
      have hs : |∑ a ∈ Finset.range sp.n, f sp a| ≤ sp.n * δ := by
        refine (Finset.abs_sum_le_sum_abs _ _).trans ?_
        have := Finset.sum_le_card_nsmul (Finset.range sp.n) (fun a => |f sp a|) δ
          (fun a ha => (h sp List.mem_cons_self a (Finset.mem_range.1 ha)).le)
        rwa [Finset.card_range, nsmul_eq_mul] at this
      have hs' : 0 < sp.n → |∑ a ∈ Finset.range sp.n, f sp a| < sp.n * δ := by
        intro hp
        refine lt_of_le_of_lt (Finset.abs_sum_le_sum_abs _ _) ?_
        have := Finset.sum_lt_sum_of_nonempty (s := Finset.range sp.n) (f := fun a => |f sp a|) (g := fun _ => δ)
          ⟨0, Finset.mem_range.2 hp⟩ (fun a ha => h sp List.mem_cons_self a (Finset.mem_range.1 ha))
        rwa [Finset.sum_const, Finset.card_range, nsmul_eq_mul] at this
      have e1 : atomSum (sp :: l) f = (∑ a ∈ Finset.range sp.n, f sp a) + atomSum l f := by simp [atomSum]
      have e2 : ((nAtoms (sp :: l) : Nat) : ℝ) = (sp.n : ℝ) + (nAtoms l : ℝ) := by simp [nAtoms]
      have e3 : nAtoms (sp :: l) = sp.n + nAtoms l := by simp [nAtoms]
      rw [e1, e2]
      have tri := abs_add_le (∑ a ∈ Finset.range sp.n, f sp a) (atomSum l f)
      refine ⟨by linarith, fun hp => ?_⟩
      rcases Nat.eq_zero_or_pos sp.n with h0 | h0
      · have := i2 (by omega)
        linarith
      · have := hs' h0
        linarith
  have hN : (0 : ℝ) < nAtoms l := by exact_mod_cast hn
  rw [abs_div, abs_of_pos hN, div_lt_iff₀ hN, mul_comm]
  exact (key l h).2 hn

theorem Good.close (h : Sharp c rots κ) (hg : PointGroup rots) (hn : 0 < nAtoms c.species) {op : Op ℝ} {t : V3 ℝ}
    {g : Species → Nat → Nat} (hgood : Good c op t g) (k : Fin 3) : |op.a k - t k| < c.thr / 22 := by
  have hthr := h.thr_pos
  have hh := h.thr_half hg
  norm_num at hh
  have : op.a k - t k = (atomSum c.species fun sp a => corr op.rot t g sp a k) / (nAtoms c.species : ℝ) := by
    rw [hgood.a_eq k]; ring
  rw [this]
  refine atomSum_bound c.species (fun sp a => corr op.rot t g sp a k) _ (fun sp hsp a ha => ?_) hn
  exact wrapHalf_near (by linarith) (hgood.near sp hsp a ha) k

theorem close_near {δ : ℝ} {v w : V3 ℝ} (h : ∀ k, |v k - w k| < δ) : NearLattice δ fun k => v k - w k :=
  ⟨fun _ => 0, fun k => by simpa using h k⟩

theorem Good.takes (h : Sharp c rots κ) (hg : PointGroup rots) (hn : 0 < nAtoms c.species) {op : Op ℝ} {t : V3 ℝ}
    {g : Species → Nat → Nat} (hgood : Good c op t g) (hsp : sp ∈ c.species) {a : Nat} (ha : a < sp.n) :
    Takes (c.thr / 11) sp op a (g sp a) := by
  have h1 := (hgood.near sp hsp a ha).neg.add (close_near (hgood.close h hg hn))
  refine (h1.mono (by linarith)).eq fun k => ?_
  simp only [Op.applyReal, offset]; ring

theorem nAtoms_pos_of_mem {l : List Species} (hsp : sp ∈ l) (h : 0 < sp.n) : 0 < nAtoms l := by
  induction l with
  | nil => simp at hsp
  | cons s l ih =>
    unfold nAtoms at ih ⊢
    rw [List.map_cons, List.sum_cons]
    rcases List.mem_cons.1 hsp with rfl | hsp
    · omega
    · have := ih hsp; omega

/-- Offsets of admissible pairs that are close are very close. -/
theorem Sharp.close_offsets (h : Sharp c rots κ) (hr : rot ∈ rots) {sp sp' : Species} (hsp : sp ∈ c.species)
    (hsp' : sp' ∈ c.species) {a b a' b' : Nat} (ha : a < sp.n) (hb : b < sp.n) (ha' : a' < sp'.n) (hb' : b' < sp'.n)
    (h1 : admissible c sp rot a b) (h2 : admissible c sp' rot a' b') {δ : ℝ} (hδ : δ ≤ (κ + 1) * c.thr)
    (hn : NearLattice δ fun k => offset sp rot a b k - offset sp' rot a' b' k) :
    NearLattice (c.thr / 22) fun k => offset sp rot a b k - offset sp' rot a' b' k :=
  h.gap rot hr sp hsp sp' hsp' a ha b hb a' ha' b' hb' h1 h2 (hn.mono hδ)

theorem unwrap_near {δ : ℝ} {v w : V3 ℝ} (h : NearLattice δ fun k => wrapHalf v k - wrapHalf w k) : NearLattice δ fun k => v k - w k := by
  obtain ⟨n, hn⟩ := wrapHalf_int v
  obtain ⟨m, hm⟩ := wrapHalf_int w
  exact near_of_congr h ⟨fun k => - n k, fun k => by rw [hn]; push_cast; ring⟩ ⟨fun k => - m k, fun k => by rw [hm]; push_cast; ring⟩

theorem rewrap_near {δ : ℝ} {v w : V3 ℝ} (h : NearLattice δ fun k => v k - w k) : NearLattice δ fun k => wrapHalf v k - wrapHalf w k :=
  near_of_congr h (wrapHalf_int v) (wrapHalf_int w)

/-- What is found for one rotation. -/
theorem withRot_spec (h : Sharp c rots κ) (hg : PointGroup rots) (hm : MeshOk c) (hr : rot ∈ rots) {sp0 : Species} {l : List Species}
    (hl : c.species = sp0 :: l) (h0 : 0 < sp0.n) :
    ∃ ops, withRot c rot = .ok ops ∧ (∀ op ∈ ops, op.rot = rot ∧ ∃ t g, Good c op t g) ∧
      (∀ t δ, δ ≤ (κ + 1) * c.thr / 4 → MapsCrystal δ c ⟨rot, t⟩ → ∃ op ∈ ops, NearLattice (δ + c.thr / 11) fun k => op.a k - t k) ∧
      ops.Pairwise fun p q => ¬NearLattice (3 * (κ + 1) * c.thr / 4) fun k => p.a k - q.a k := by
  have hthr := h.thr_pos
  have hle := h.thr_le hg
  have hmem0 : sp0 ∈ c.species := by rw [hl]; exact List.mem_cons_self
  have hn : 0 < nAtoms c.species := nAtoms_pos_of_mem hmem0 h0
  obtain ⟨r0, e0, e1⟩ := speciesLoop_first (rot := rot) hthr (h.thr_half hg) sp0 l h0
  obtain ⟨r0', e0', hc0⟩ := candidates_spec (sp := sp0) (rot := rot) hthr (h.thr_half hg) 0
  have : r0' = r0 := by rw [e0] at e0'; cases e0'; rfl
  subst this
  rw [← hl] at e1
  set arr := r0'.filter fun t => ∀ s ∈ c.species, ∀ a1 < s.n, Hit c rot s a1 t with harr
  have hImg : ∀ t ∈ arr, ∃ g, Images c rot t g := by
    intro t ht
    rw [harr, List.mem_filter] at ht
    obtain ⟨b0, hb0, adm0, rfl⟩ := hc0.sound t ht.1
    have hh := of_decide_eq_true ht.2
    have : ∀ s : Species, ∀ a, ∃ b, s ∈ c.species → a < s.n → b < s.n ∧ admissible c s rot a b ∧
        NearLattice (c.thr / 22) fun k => offset s rot a b k - wrapHalf (offset sp0 rot 0 b0) k := by
      intro s a
      by_cases hs : s ∈ c.species ∧ a < s.n
      · obtain ⟨r, er, x, hx, hco⟩ := hh s hs.1 a hs.2
        obtain ⟨r', er', hc⟩ := candidates_spec (sp := s) (rot := rot) hthr (h.thr_half hg) a
        rw [er] at er'
        cases er'
        obtain ⟨b, hb, adm, rfl⟩ := hc.sound x hx
        refine ⟨b, fun _ _ => ⟨hb, adm, ?_⟩⟩
        have n1 := unwrap_near (coincide_near hthr hco)
        have n2 := h.close_offsets hr hs.1 hmem0 hs.2 hb h0 hb0 adm adm0 (δ := c.thr / 4) (by linarith)
          (n1.neg.eq fun k => by ring)
        refine n2.congr ?_
        obtain ⟨n, hn⟩ := wrapHalf_int (offset sp0 rot 0 b0)
        exact ⟨n, fun k => by rw [hn]; ring⟩
      · exact ⟨0, fun h1 h2 => absurd ⟨h1, h2⟩ hs⟩
    choose g hgg using this
    exact ⟨g, fun s hs a ha => (hgg s a hs ha).1, fun s hs a ha => (hgg s a hs ha).2.1, fun s hs a ha => (hgg s a hs ha).2.2,
      wrapHalf_small _⟩
  obtain ⟨ops, e2, hf⟩ := refine_spec h hg hm arr hImg
  have hpair : arr.Pairwise fun x y => ¬NearLattice ((κ + 1) * c.thr) fun k => x k - y k := by
    rw [harr]
    refine List.Pairwise.imp_of_mem ?_ (hc0.distinct.sublist List.filter_sublist)
    intro x y hx hy hxy hnear
    obtain ⟨b, hb, adm, rfl⟩ := hc0.sound x (List.mem_of_mem_filter hx)
    obtain ⟨b', hb', adm', rfl⟩ := hc0.sound y (List.mem_of_mem_filter hy)
    apply hxy
    have n2 := h.close_offsets hr hmem0 hmem0 h0 hb h0 hb' adm adm' le_rfl (unwrap_near hnear)
    exact near_coincide hthr (((rewrap_near n2).neg.mono (by linarith)).eq fun k => by ring)
  refine ⟨ops, ?_, ?_, ?_, ?_⟩
  · unfold withRot
    rw [e1]
    exact e2
  · intro op hop
    obtain ⟨i, hi, rfl⟩ := List.getElem_of_mem hop
    have hlen := hf.length_eq
    obtain ⟨e, g, hgood⟩ := List.forall₂_iff_get.1 hf |>.2 i (by omega) hi
    exact ⟨e, _, g, hgood⟩
  · intro t δ hδ hmaps
    obtain ⟨b0, hb0, adm0, tk0⟩ := hmaps sp0 hmem0 0 h0
    obtain ⟨x0, hx0, hco0⟩ := hc0.complete b0 hb0 adm0
    obtain ⟨b1, hb1, adm1, rfl⟩ := hc0.sound x0 hx0
    have m0 := h.close_offsets hr hmem0 hmem0 h0 hb0 h0 hb1 adm0 adm1 (δ := c.thr / 4) (by linarith) (unwrap_near (coincide_near hthr hco0))
    have m0' : NearLattice (δ + c.thr / 22) fun k => t k - offset sp0 rot 0 b1 k := by
      refine (tk0.add m0).eq fun k => ?_
      simp only [Op.applyReal, offset]; ring
    have hin : wrapHalf (offset sp0 rot 0 b1) ∈ arr := by
      rw [harr, List.mem_filter]
      refine ⟨hx0, decide_eq_true fun s hs a ha => ?_⟩
      obtain ⟨b, hb, adm, tk⟩ := hmaps s hs a ha
      obtain ⟨r, er, hc⟩ := candidates_spec (sp := s) (rot := rot) hthr (h.thr_half hg) a
      obtain ⟨x, hx, hco⟩ := hc.complete b hb adm
      obtain ⟨b', hb', adm', rfl⟩ := hc.sound x hx
      refine ⟨r, er, _, hx, ?_⟩
      have m1 := h.close_offsets hr hs hs ha hb ha hb' adm adm' (δ := c.thr / 4) (by linarith) (unwrap_near (coincide_near hthr hco))
      have m1' : NearLattice (δ + c.thr / 22) fun k => t k - offset s rot a b' k := by
        refine (tk.add m1).eq fun k => ?_
        simp only [Op.applyReal, offset]; ring
      have m2 : NearLattice ((δ + c.thr / 22) + (δ + c.thr / 22)) fun k => offset sp0 rot 0 b1 k - offset s rot a b' k :=
        (m0'.neg.add m1').eq fun k => by ring
      have m3 := h.close_offsets hr hmem0 hs h0 hb1 ha hb' adm1 adm' (by linarith) m2
      exact near_coincide hthr ((rewrap_near m3).mono (by linarith))
    obtain ⟨i, hi, hie⟩ := List.getElem_of_mem hin
    have hlen := hf.length_eq
    obtain ⟨e, g, hgood⟩ := List.forall₂_iff_get.1 hf |>.2 i hi (by omega)
    refine ⟨ops[i], List.getElem_mem (by omega), ?_⟩
    simp only [List.get_eq_getElem] at hgood
    rw [hie] at hgood
    have cl := close_near (hgood.close h hg hn)
    obtain ⟨n, hnn⟩ := wrapHalf_int (offset sp0 rot 0 b1)
    have m4 : NearLattice (δ + c.thr / 22) fun k => wrapHalf (offset sp0 rot 0 b1) k - t k :=
      m0'.neg.congr ⟨fun k => - n k, fun k => by rw [hnn]; push_cast; ring⟩
    exact ((cl.add m4).mono (by linarith)).eq fun k => by ring
  · rw [List.pairwise_iff_getElem] at hpair ⊢
    intro i j hi hj hij hnear
    have hlen := hf.length_eq
    obtain ⟨e, g, hgood⟩ := List.forall₂_iff_get.1 hf |>.2 i (by omega) hi
    obtain ⟨e', g', hgood'⟩ := List.forall₂_iff_get.1 hf |>.2 j (by omega) hj
    refine hpair i j (by omega) (by omega) hij ?_
    have c1 := close_near (hgood.close h hg hn)
    have c2 := close_near (hgood'.close h hg hn)
    refine (((c1.neg.add hnear).add c2).mono (by linarith)).eq fun k => ?_
    simp only [List.get_eq_getElem]
    ring

end
end Jdftx.FindGroup
