import Verif.Model.Symmetrize
import Verif.Spec.Symmetrize
import Verif.Lemmas.Mat3
import Verif.Lemmas.Box
import Verif.Props.SpaceGroup
import Mathlib.Data.Complex.BigOperators
import Mathlib.Data.Fintype.Card
import Mathlib.Algebra.BigOperators.Fin
import Mathlib.Tactic.FieldSimp
import Mathlib.Tactic.Linarith
import Mathlib.Tactic.LinearCombination

/-!
# Lemmas for C33: averaging over a group acting with phases
-/
namespace Jdftx.Sym
open Jdftx.M3 Jdftx.Box
open scoped ComplexConjugate
noncomputable section
open Classical

/-- A finite group acting (from the right) on `N` array elements with phases. -/
structure Act (n N : Nat) where
  mul : Fin n → Fin n → Fin n
  one : Fin n
  inv : Fin n → Fin n
  tgt : Fin n → Fin N → Fin N
  ph : Fin n → Fin N → ℂ
  tgt_mul : ∀ j k i, tgt (mul j k) i = tgt k (tgt j i)
  ph_mul : ∀ j k i, ph (mul j k) i = ph j i * ph k (tgt j i)
  tgt_one : ∀ i, tgt one i = i
  ph_one : ∀ i, ph one i = 1
  left_inj : ∀ j, Function.Injective (mul j)
  right_inj : ∀ k, Function.Injective fun j => mul j k
  mul_inv : ∀ j, mul j (inv j) = one
  inv_mul : ∀ j, mul (inv j) j = one
  unit : ∀ j i, ph j i * conj (ph j i) = 1

variable {n N : Nat} (A : Act n N)

/-- Group average of array `x` at element `i`, times `n`. -/
def Act.total (x : Arr) (i : Fin N) : ℂ := ∑ j, A.ph j i * x ((A.tgt j i).val : Int)

/-- Entries of the class started at `i`. -/
def Act.entries (i : Fin N) : List (Int × ℂ) := List.ofFn fun j => (((A.tgt j i).val : Int), A.ph j i)

def Act.InOrbit (s p : Fin N) : Prop := ∃ j, A.tgt j s = p

theorem Act.total_tgt (x : Arr) (j : Fin n) (i : Fin N) : A.total x i = A.ph j i * A.total x (A.tgt j i) := by
  unfold Act.total
  rw [Finset.mul_sum]
  have hb : Function.Bijective (A.mul j) := (Finite.injective_iff_bijective).1 (A.left_inj j)
  rw [← hb.sum_comp (fun k => A.ph k i * x ((A.tgt k i).val : Int))]
  refine Finset.sum_congr rfl fun k _ => ?_
  rw [A.ph_mul, A.tgt_mul, mul_assoc]

theorem Act.inOrbit_refl (i : Fin N) : A.InOrbit i i := ⟨A.one, A.tgt_one i⟩
theorem Act.inOrbit_symm {s p : Fin N} (h : A.InOrbit s p) : A.InOrbit p s := by
  obtain ⟨j, rfl⟩ := h
  exact ⟨A.inv j, by rw [← A.tgt_mul, A.mul_inv, A.tgt_one]⟩
theorem Act.inOrbit_trans {s p q : Fin N} (h : A.InOrbit s p) (g : A.InOrbit p q) : A.InOrbit s q := by
  obtain ⟨j, rfl⟩ := h
  obtain ⟨k, rfl⟩ := g
  exact ⟨A.mul j k, A.tgt_mul j k s⟩

/-- Number of operations taking `s` to `p`. -/
def Act.fib (s p : Fin N) : Nat := (Finset.univ.filter fun j => A.tgt j s = p).card

theorem Act.fib_le (s p : Fin N) (k : Fin n) : A.fib s p ≤ A.fib s (A.tgt k p) := by
  unfold Act.fib
  refine Finset.card_le_card_of_injOn (fun j => A.mul j k) ?_ ((A.right_inj k).injOn)
  intro j hj
  simp only [Finset.coe_filter, Finset.mem_univ, true_and, Set.mem_ofPred_eq] at hj ⊢
  rw [A.tgt_mul, hj]

theorem Act.fib_eq (s p : Fin N) (h : A.InOrbit s p) : A.fib s p = A.fib s s := by
  obtain ⟨k, rfl⟩ := h
  apply le_antisymm
  · have := A.fib_le s (A.tgt k s) (A.inv k)
    rwa [← A.tgt_mul, A.mul_inv, A.tgt_one] at this
  · exact A.fib_le s s k

/-- The orbit as a finite set of array elements. -/
def Act.orb (s : Fin N) : Finset (Fin N) := Finset.univ.filter fun p => A.InOrbit s p

theorem Act.card_orb (s : Fin N) : (A.orb s).card * A.fib s s = n := by
  have h1 : ∑ p ∈ A.orb s, A.fib s p = n := by
    have := Finset.card_eq_sum_card_fiberwise (f := fun j => A.tgt j s) (s := Finset.univ) (t := A.orb s) (by
      intro j _; simp only [Act.orb, Finset.coe_filter, Finset.mem_univ, true_and, Set.mem_ofPred_eq]; exact ⟨j, rfl⟩)
    rw [Finset.card_univ, Fintype.card_fin] at this
    exact this.symm
  rw [Finset.sum_congr rfl (fun p hp => A.fib_eq s p (by simpa [Act.orb] using hp))] at h1
  simpa using h1

theorem Act.fib_pos (s : Fin N) : 0 < A.fib s s := by
  unfold Act.fib
  exact Finset.card_pos.2 ⟨A.one, by simp [A.tgt_one]⟩

theorem Act.dedup_len (s : Fin N) : ((A.entries s).map Prod.fst).dedup.length = (A.orb s).card := by
  have h : ((A.entries s).map Prod.fst).toFinset = (A.orb s).image fun p => ((p.val : Nat) : Int) := by
    ext z
    simp only [Act.entries, List.mem_toFinset, List.mem_map, List.mem_ofFn, Finset.mem_image, Act.orb, Finset.mem_filter, Finset.mem_univ, true_and]
    constructor
    · rintro ⟨_, ⟨j, rfl⟩, rfl⟩; exact ⟨A.tgt j s, ⟨j, rfl⟩, rfl⟩
    · rintro ⟨_, ⟨j, rfl⟩, rfl⟩; exact ⟨_, ⟨j, rfl⟩, rfl⟩
  rw [← List.card_toFinset, h, Finset.card_image_of_injective]
  intro a b hab
  ext
  simpa using hab

theorem Act.mult_eq (s : Fin N) : n / (A.orb s).card = A.fib s s ∧ A.fib s s * (A.orb s).card = n := by
  have h := A.card_orb s
  have hpos : 0 < (A.orb s).card := Finset.card_pos.2 ⟨s, by simp [Act.orb, A.inOrbit_refl]⟩
  refine ⟨?_, by rw [Nat.mul_comm]; exact h⟩
  exact Nat.div_eq_of_eq_mul_right hpos h.symm

/-! ### One class -/

theorem foldl_sum (l : List (Int × ℂ)) (x : Arr) (s : ℂ) :
    l.foldl (fun s e => s + x e.1 * e.2) s = s + (l.map fun e => x e.1 * e.2).sum := by
  induction l generalizing s with
  | nil => simp
  | cons e l ih => simp [ih, add_assoc]

theorem foldl_zero (l : List (Int × ℂ)) (x : Arr) (p : Int) :
    l.foldl (fun x e => Function.update x e.1 0) x p = if p ∈ l.map Prod.fst then 0 else x p := by
  induction l generalizing x with
  | nil => simp
  | cons e l ih =>
    rw [List.foldl_cons, ih]
    by_cases h : p ∈ l.map Prod.fst
    · simp only [List.map_cons, List.mem_cons, h, or_true, if_true]
    · by_cases h2 : p = e.1
      · subst h2; simp
      · simp only [List.map_cons, List.mem_cons, h, h2, or_false, if_false]
        rw [Function.update_of_ne h2]

theorem foldl_accum (l : List (Int × ℂ)) (x : Arr) (c : ℂ) (p : Int) :
    l.foldl (fun x e => Function.update x e.1 (x e.1 + c * conj e.2)) x p
      = x p + (l.map fun e => if e.1 = p then c * conj e.2 else 0).sum := by
  induction l generalizing x with
  | nil => simp
  | cons e l ih =>
    rw [List.foldl_cons, ih]
    by_cases h : e.1 = p
    · subst h; simp [add_assoc]
    · simp [h, Function.update_of_ne (Ne.symm h)]

theorem Act.mem_entries (s p : Fin N) : ((p.val : Nat) : Int) ∈ (A.entries s).map Prod.fst ↔ A.InOrbit s p := by
  simp only [Act.entries, List.mem_map, List.mem_ofFn]
  constructor
  · rintro ⟨_, ⟨j, rfl⟩, h⟩
    exact ⟨j, by ext; simpa using h⟩
  · rintro ⟨j, rfl⟩; exact ⟨_, ⟨j, rfl⟩, rfl⟩

theorem Act.class_spec (s : Fin N) (x : Arr) (hn : 0 < n) :
    (∀ p, A.InOrbit s p → symmetrizeClass n (A.fib s s, A.entries s) x ((p.val : Nat) : Int) = A.total x p / n) ∧
    (∀ p : Fin N, ¬A.InOrbit s p → symmetrizeClass n (A.fib s s, A.entries s) x ((p.val : Nat) : Int) = x ((p.val : Nat) : Int)) := by
  have hsum : ((A.entries s).foldl (fun t e => t + x e.1 * e.2) 0) = A.total x s := by
    rw [foldl_sum, zero_add, Act.entries, List.map_ofFn, List.sum_ofFn]
    exact Finset.sum_congr rfl fun j _ => by simp only [Function.comp]; ring
  have hf : (A.fib s s : ℂ) ≠ 0 := by exact_mod_cast (A.fib_pos s).ne'
  have hn' : (n : ℂ) ≠ 0 := by exact_mod_cast hn.ne'
  constructor
  · rintro p hp
    unfold symmetrizeClass
    simp only [hsum]
    rw [foldl_accum, foldl_zero, if_pos ((A.mem_entries s p).2 hp), zero_add, Act.entries, List.map_ofFn, List.sum_ofFn]
    simp only [Function.comp]
    have h1 : ∀ j : Fin n, (if (((A.tgt j s).val : Nat) : Int) = ((p.val : Nat) : Int) then A.total x s * (1 / ((n : ℂ) * (A.fib s s : ℂ))) * conj (A.ph j s) else 0)
        = if A.tgt j s = p then A.total x p * (1 / ((n : ℂ) * (A.fib s s : ℂ))) else 0 := by
      intro j
      by_cases h : A.tgt j s = p
      · rw [if_pos (by rw [h]), if_pos h, A.total_tgt x j s, h]
        have := A.unit j s
        linear_combination (A.total x p * (1 / ((n : ℂ) * (A.fib s s : ℂ)))) * this
      · rw [if_neg h, if_neg]
        intro h2; apply h; ext; simpa using h2
    rw [Finset.sum_congr rfl fun j _ => h1 j, ← Finset.sum_filter, Finset.sum_const]
    have h2 : (Finset.univ.filter fun j => A.tgt j s = p).card = A.fib s s := A.fib_eq s p hp
    rw [h2, nsmul_eq_mul]
    field_simp
  · intro p hp
    unfold symmetrizeClass
    simp only
    rw [foldl_accum, foldl_zero, if_neg (fun h => hp ((A.mem_entries s p).1 h))]
    have : ((A.entries s).map fun e => if e.1 = ((p.val : Nat) : Int) then
        (A.entries s).foldl (fun t e => t + x e.1 * e.2) 0 * (1 / ((n : ℂ) * (A.fib s s : ℂ))) * conj e.2 else 0).sum = 0 := by
      apply List.sum_eq_zero
      intro z hz
      simp only [List.mem_map] at hz
      obtain ⟨e, he, rfl⟩ := hz
      rw [if_neg]
      intro h
      exact hp ((A.mem_entries s p).1 (List.mem_map.2 ⟨e, he, h⟩))
    rw [this, add_zero]

theorem Act.total_congr (x y : Arr) (p : Fin N) (h : ∀ q, A.InOrbit p q → x ((q.val : Nat) : Int) = y ((q.val : Nat) : Int)) :
    A.total x p = A.total y p := by
  unfold Act.total
  exact Finset.sum_congr rfl fun j _ => by rw [h _ ⟨j, rfl⟩]

/-- All classes. -/
theorem Act.run_spec (hn : 0 < n) (starts : List (Fin N)) (hd : starts.Pairwise fun s t => ¬A.InOrbit s t) (x : Arr) :
    (∀ p, (∃ s ∈ starts, A.InOrbit s p) →
      (starts.map fun s => ((A.fib s s, A.entries s) : Class)).foldl (fun x c => symmetrizeClass n c x) x ((p.val : Nat) : Int) = A.total x p / n) ∧
    (∀ p : Fin N, (¬∃ s ∈ starts, A.InOrbit s p) →
      (starts.map fun s => ((A.fib s s, A.entries s) : Class)).foldl (fun x c => symmetrizeClass n c x) x ((p.val : Nat) : Int) = x ((p.val : Nat) : Int)) := by
  induction starts generalizing x with
  | nil => exact ⟨fun p ⟨s, hs, _⟩ => absurd hs (by simp), fun p _ => rfl⟩
  | cons s ss ih =>
    rw [List.pairwise_cons] at hd
    obtain ⟨c1, c2⟩ := A.class_spec s x hn
    obtain ⟨i1, i2⟩ := ih hd.2 (symmetrizeClass n (A.fib s s, A.entries s) x)
    simp only [List.map_cons, List.foldl_cons]
    constructor
    · rintro p ⟨t, ht, hp⟩
      by_cases hex : ∃ t ∈ ss, A.InOrbit t p
      · rw [i1 p hex]
        obtain ⟨u, hu, hup⟩ := hex
        congr 1
        apply A.total_congr
        intro q hq
        apply c2
        intro hsq
        exact hd.1 u hu (A.inOrbit_trans hsq (A.inOrbit_symm (A.inOrbit_trans hup hq)))
      · rw [i2 p hex]
        rcases List.mem_cons.1 ht with rfl | ht
        · exact c1 p hp
        · exact absurd ⟨t, ht, hp⟩ hex
    · intro p hp
      rw [i2 p (fun ⟨t, ht, h⟩ => hp ⟨t, by simp [ht], h⟩), c2 p (fun h => hp ⟨s, by simp, h⟩)]

/-- Construction of the classes. -/
theorem Act.build_spec (ent : IV → List (Int × ℂ)) (rep : Nat → IV) (hent : ∀ i : Fin N, ent (rep i.val) = A.entries i) :
    ∀ (m i : Nat), i + m = N → ∀ done : List Int, (∀ z ∈ done, ∃ p : Fin N, z = ((p.val : Nat) : Int)) →
      (∀ p q : Fin N, A.InOrbit p q → ((p.val : Nat) : Int) ∈ done → ((q.val : Nat) : Int) ∈ done) →
      ∃ starts : List (Fin N), buildClasses ent n ((List.range' i m).map fun i => (i, rep i)) done
          = .ok (starts.map fun s => ((A.fib s s, A.entries s) : Class)) ∧
        starts.Pairwise (fun s t => ¬A.InOrbit s t) ∧
        (∀ s ∈ starts, ((s.val : Nat) : Int) ∉ done) ∧
        ∀ p : Fin N, i ≤ p.val → ((p.val : Nat) : Int) ∈ done ∨ ∃ s ∈ starts, A.InOrbit s p := by
  intro m
  induction m with
  | zero =>
    intro i hi done _ _
    exact ⟨[], rfl, List.Pairwise.nil, by simp, fun p hp => by have := p.isLt; omega⟩
  | succ m ih =>
    intro i hi done hd1 hd2
    have hiN : i < N := by omega
    rw [List.range'_succ, List.map_cons]
    unfold buildClasses
    by_cases hin : (i : Int) ∈ done
    · rw [if_pos hin]
      obtain ⟨starts, e, h1, h2, h3⟩ := ih (i + 1) (by omega) done hd1 hd2
      refine ⟨starts, e, h1, h2, fun p hp => ?_⟩
      by_cases hpi : p.val = i
      · left; rw [hpi]; exact hin
      · exact h3 p (by omega)
    · rw [if_neg hin]
      have he := hent ⟨i, hiN⟩
      simp only at he
      simp only [he, A.dedup_len, (A.mult_eq ⟨i, hiN⟩).1, (A.mult_eq ⟨i, hiN⟩).2, ne_eq, not_true, if_false]
      obtain ⟨starts, e, h1, h2, h3⟩ := ih (i + 1) (by omega) ((A.entries ⟨i, hiN⟩).map Prod.fst ++ done) (by
          intro z hz
          rcases List.mem_append.1 hz with hz | hz
          · simp only [Act.entries, List.mem_map, List.mem_ofFn] at hz
            obtain ⟨_, ⟨j, rfl⟩, rfl⟩ := hz
            exact ⟨_, rfl⟩
          · exact hd1 z hz) (by
          intro p q hpq hp
          rcases List.mem_append.1 hp with hp | hp
          · exact List.mem_append_left _ ((A.mem_entries _ _).2 (A.inOrbit_trans ((A.mem_entries _ _).1 hp) hpq))
          · exact List.mem_append_right _ (hd2 p q hpq hp))
      rw [e]
      refine ⟨⟨i, hiN⟩ :: starts, rfl, List.pairwise_cons.2 ⟨?_, h1⟩, ?_, ?_⟩
      · intro t ht hor
        exact h2 t ht (List.mem_append_left _ ((A.mem_entries _ _).2 hor))
      · intro s hs
        rcases List.mem_cons.1 hs with rfl | hs
        · exact hin
        · exact fun h => h2 s hs (List.mem_append_right _ h)
      · intro p hp
        by_cases hpi : p.val = i
        · right
          exact ⟨_, List.mem_cons_self, by have : p = ⟨i, hiN⟩ := by ext; exact hpi
                                           rw [this]; exact A.inOrbit_refl _⟩
        · rcases h3 p (by omega) with h | ⟨s, hs, h⟩
          · rcases List.mem_append.1 h with h | h
            · exact .inr ⟨_, List.mem_cons_self, (A.mem_entries _ _).1 h⟩
            · exact .inl h
          · exact .inr ⟨s, by simp [hs], h⟩

/-! ### The concrete action -/

/-- Phase factor `exp(2πi t)`. -/
def E (t : ℝ) : ℂ := Complex.exp ((2 * Real.pi * t : ℝ) * Complex.I)

theorem E_add (s t : ℝ) : E (s + t) = E s * E t := by
  unfold E; rw [← Complex.exp_add]; congr 1; push_cast; ring

theorem E_int (n : Int) : E n = 1 := by
  unfold E
  rw [Complex.exp_eq_one_iff]
  exact ⟨n, by push_cast; ring⟩

theorem E_zero : E 0 = 1 := by simpa using E_int 0

theorem E_conj (t : ℝ) : conj (E t) = E (-t) := by
  unfold E; rw [← Complex.exp_conj]; congr 1; simp [Complex.conj_ofReal, map_ofNat]

theorem E_unit (t : ℝ) : E t * conj (E t) = 1 := by
  rw [E_conj, ← E_add, add_neg_cancel, E_zero]

theorem E_congr (s t : ℝ) (n : Int) (h : s = t + n) : E s = E t := by rw [h, E_add, E_int, mul_one]

/-- `g·a`. -/
def gdot (g : V3 Int) (a : V3 ℝ) : ℝ := ∑ k, (g k : ℝ) * a k

theorem phase_eq (op : Op ℝ) (v : IV) : phase op v = E (-gdot (toV3 v) op.a) := by
  unfold phase E gdot dot
  congr 2
  rw [Fin.sum_univ_three]
  push_cast
  ring

theorem fieldAt_eq (S : Size) (x : Arr) (r : V3 ℝ) : fieldAt S x r = ∑ i ∈ Finset.range (nr S), x i * E (gdot (gOf S i) r) := rfl

/-- Congruence modulo the sample counts. -/
def Cong (S : Size) (g h : V3 Int) : Prop := ∀ k, cnt S k ∣ g k - h k

theorem Cong.refl (S : Size) (g : V3 Int) : Cong S g g := fun k => by simp
theorem Cong.symm {S : Size} {g h : V3 Int} (c : Cong S g h) : Cong S h g := fun k => by
  have := c k; rw [← neg_sub]; exact (dvd_neg).2 this
theorem Cong.trans {S : Size} {f g h : V3 Int} (c : Cong S f g) (d : Cong S g h) : Cong S f h := fun k => by
  have := dvd_add (c k) (d k); simpa using this

/-- Array element of reciprocal vector `g`. -/
def modIdx (S : Size) (g : V3 Int) : Int := fullRindex S ⟨g 0 % S.s0, g 1 % S.s1, g 2 % S.s2⟩

theorem positiveRemainder_eq (x : Int) (y : Nat) (hy : 0 < y) : positiveRemainder x y = x % (y : Int) := by
  unfold positiveRemainder
  have h1 := Int.tmod_add_mul_tdiv x y
  have h2 : x.tmod y < y := by
    exact Int.tmod_lt_of_pos x (by omega)
  have h3 : -(y : Int) < x.tmod y := by
    have := Int.lt_tmod_of_pos x (b := (y : Int)) (by omega)
    exact this
  simp only
  generalize x.tmod y = r at *
  generalize x.tdiv y = q at *
  subst h1
  rw [Int.add_mul_emod_self_left]
  split
  · rw [← Int.add_emod_right, Int.emod_eq_of_lt (by omega) (by omega)]
  · rw [Int.emod_eq_of_lt (by omega) h2]

theorem target_eq (S : Size) (hS : S.Pos) (op : Op ℝ) (v : IV) : target S op v = modIdx S (mulVM (toV3 v) op.rot) := by
  unfold target modIdx
  simp only [positiveRemainder_eq _ _ hS.1, positiveRemainder_eq _ _ hS.2.1, positiveRemainder_eq _ _ hS.2.2]

theorem cnt_pos {S : Size} (hS : S.Pos) (k : Fin 3) : 0 < cnt S k := by
  obtain ⟨h0, h1, h2⟩ := hS
  fin_cases k <;> simp [cnt, vec] <;> omega

theorem modIdx_valid (S : Size) (hS : S.Pos) (g : V3 Int) : ValidR S ⟨g 0 % S.s0, g 1 % S.s1, g 2 % S.s2⟩ := by
  obtain ⟨h0, h1, h2⟩ := hS
  refine ⟨⟨Int.emod_nonneg _ (by omega), Int.emod_lt_of_pos _ (by omega)⟩, ⟨Int.emod_nonneg _ (by omega), Int.emod_lt_of_pos _ (by omega)⟩,
    Int.emod_nonneg _ (by omega), Int.emod_lt_of_pos _ (by omega)⟩

theorem modIdx_range (S : Size) (hS : S.Pos) (g : V3 Int) : 0 ≤ modIdx S g ∧ modIdx S g < nr S :=
  fullRindex_range S _ (modIdx_valid S hS g)

theorem modIdx_congr {S : Size} {g h : V3 Int} (c : Cong S g h) : modIdx S g = modIdx S h := by
  have c0 : g 0 % (S.s0 : Int) = h 0 % (S.s0 : Int) := Int.emod_eq_emod_iff_emod_sub_eq_zero.2 (Int.emod_eq_zero_of_dvd (c 0))
  have c1 : g 1 % (S.s1 : Int) = h 1 % (S.s1 : Int) := Int.emod_eq_emod_iff_emod_sub_eq_zero.2 (Int.emod_eq_zero_of_dvd (c 1))
  have c2 : g 2 % (S.s2 : Int) = h 2 % (S.s2 : Int) := Int.emod_eq_emod_iff_emod_sub_eq_zero.2 (Int.emod_eq_zero_of_dvd (c 2))
  unfold modIdx
  rw [c0, c1, c2]

theorem cong_of_emod {S : Size} (g : V3 Int) : Cong S (toV3 ⟨g 0 % S.s0, g 1 % S.s1, g 2 % S.s2⟩) g := by
  have key : ∀ x y : Int, y ∣ x % y - x := fun x y => ⟨-(x / y), by have := Int.emod_add_mul_ediv x y; linarith⟩
  intro k
  fin_cases k <;> simp only [toV3, vec, cnt] <;> exact key _ _

theorem gOf_eq (S : Size) (i : Nat) : gOf S i = toV3 (rStart S i) := rfl

theorem cong_gStart (S : Size) (i : Nat) : Cong S (toV3 (gStart S i)) (gOf S i) := by
  have key : ∀ (s : Nat) (x : Int), (s : Int) ∣ fold1 s x - x := by
    intro s x; unfold fold1; split
    · exact ⟨-1, by ring⟩
    · simp
  intro k
  rw [gOf_eq]
  fin_cases k <;> simp only [toV3, vec, cnt, gStart] <;> exact key _ _

/-- The coordinates of the array element of `g` are congruent to `g`. -/
theorem gOf_modIdx (S : Size) (hS : S.Pos) (g : V3 Int) : Cong S (gOf S (modIdx S g).toNat) g := by
  have hv := modIdx_valid S hS g
  have hr := fullRindex_range S _ hv
  have h1 : (((modIdx S g).toNat : Nat) : Int) = modIdx S g := Int.toNat_of_nonneg hr.1
  have h2 : rStart S (modIdx S g).toNat = ⟨g 0 % S.s0, g 1 % S.s1, g 2 % S.s2⟩ := by
    apply fullRindex_inj S _ _ (rStart_valid S hS _ (by have := hr.2; unfold modIdx at *; omega)) hv
    rw [rStart_index, h1]; rfl
  rw [gOf_eq, h2]
  exact cong_of_emod g

theorem modIdx_gOf (S : Size) (hS : S.Pos) (i : Nat) (hi : i < nr S) : modIdx S (gOf S i) = i := by
  have hv := rStart_valid S hS i hi
  obtain ⟨⟨a0, b0⟩, ⟨a1, b1⟩, a2, b2⟩ := hv
  have : (⟨gOf S i 0 % S.s0, gOf S i 1 % S.s1, gOf S i 2 % S.s2⟩ : IV) = rStart S i := by
    show (⟨(rStart S i).x % S.s0, (rStart S i).y % S.s1, (rStart S i).z % S.s2⟩ : IV) = rStart S i
    rw [Int.emod_eq_of_lt a0 b0, Int.emod_eq_of_lt a1 b1, Int.emod_eq_of_lt a2 b2]
  unfold modIdx
  rw [this, rStart_index]

theorem cong_mul {S : Size} {op : Op ℝ} (hop : MeshOp S op) {g h : V3 Int} (c : Cong S g h) :
    Cong S (mulVM g op.rot) (mulVM h op.rot) := by
  intro k
  have : mulVM g op.rot k - mulVM h op.rot k
      = (g 0 - h 0) * op.rot 0 k + (g 1 - h 1) * op.rot 1 k + (g 2 - h 2) * op.rot 2 k := by
    simp only [mulVM]; ring
  rw [this]
  have key : ∀ j, cnt S k ∣ (g j - h j) * op.rot j k := by
    intro j
    obtain ⟨q, hq⟩ := c j
    rw [hq]
    have := hop.1 j k
    rw [mul_assoc, mul_comm q, ← mul_assoc]
    exact Dvd.dvd.mul_right this q
  exact dvd_add (dvd_add (key 0) (key 1)) (key 2)

theorem gdot_cong {S : Size} {a : V3 ℝ} (ha : ∀ k, ∃ n : Int, (cnt S k : ℝ) * a k = n) {g h : V3 Int} (c : Cong S g h) :
    ∃ n : Int, gdot g a = gdot h a + n := by
  choose q hq using c
  choose m hm using ha
  refine ⟨∑ k, q k * m k, ?_⟩
  unfold gdot
  push_cast
  rw [← Finset.sum_add_distrib]
  refine Finset.sum_congr rfl fun k _ => ?_
  have : (g k : ℝ) = h k + cnt S k * q k := by
    have : g k = h k + cnt S k * q k := by have := hq k; linarith
    exact_mod_cast this
  rw [this, ← hm k]
  ring

theorem gdot_mul (g : V3 Int) (rot : Mat Int) (a : V3 ℝ) : gdot g (mulMV (castMat rot) a) = gdot (mulVM g rot) a := by
  unfold gdot mulMV mulVM castMat
  simp only [Fin.sum_univ_three]
  push_cast
  ring

theorem gdot_add (g : V3 Int) (a b : V3 ℝ) : gdot g (fun k => a k + b k) = gdot g a + gdot g b := by
  unfold gdot; rw [← Finset.sum_add_distrib]; exact Finset.sum_congr rfl fun k _ => by ring

theorem gdot_int (g : V3 Int) (a b : V3 ℝ) (h : ∀ k, ∃ n : Int, a k = b k + (n : ℝ)) : ∃ n : Int, gdot g a = gdot g b + n := by
  choose m hm using h
  refine ⟨∑ k, g k * m k, ?_⟩
  unfold gdot
  push_cast
  rw [← Finset.sum_add_distrib]
  exact Finset.sum_congr rfl fun k _ => by rw [hm k]; ring

/-! ### Group structure on list positions -/

theorem SameOp.refl (p : Op ℝ) : SameOp p p := ⟨rfl, fun k => ⟨0, by simp⟩⟩
theorem SameOp.symm {p q : Op ℝ} (h : SameOp p q) : SameOp q p :=
  ⟨h.1.symm, fun k => by obtain ⟨n, hn⟩ := h.2 k; exact ⟨-n, by rw [hn]; push_cast; ring⟩⟩
theorem SameOp.trans {p q r : Op ℝ} (h : SameOp p q) (g : SameOp q r) : SameOp p r :=
  ⟨h.1.trans g.1, fun k => by
    obtain ⟨n, hn⟩ := h.2 k; obtain ⟨m, hm⟩ := g.2 k; exact ⟨n + m, by rw [hn, hm]; push_cast; ring⟩⟩

theorem SameOp.mul {p p' q q' : Op ℝ} (h : SameOp p p') (g : SameOp q q') : SameOp (p.mul q) (p'.mul q') := by
  refine ⟨?_, ?_⟩
  · simp only [Op.mul, h.1, g.1]
  · intro k
    choose n hn using h.2
    choose m hm using g.2
    refine ⟨p'.rot k 0 * m 0 + p'.rot k 1 * m 1 + p'.rot k 2 * m 2 + n k, ?_⟩
    simp only [Op.mul, h.1, mulMV, castMat, hn, hm]
    push_cast
    ring

theorem SameOp.cancel_left {p q q' : Op ℝ} (hp : det p.rot = 1 ∨ det p.rot = -1) (h : SameOp (p.mul q) (p.mul q')) : SameOp q q' := by
  have h2 := SameOp.mul (SameOp.refl p.inv) h
  rw [← C34_assoc, ← C34_assoc, (C34_inverse p hp).2, (C34_unit q).1, (C34_unit q').1] at h2
  exact h2

theorem SameOp.cancel_right {p p' q : Op ℝ} (hq : det q.rot = 1 ∨ det q.rot = -1) (h : SameOp (p.mul q) (p'.mul q)) : SameOp p p' := by
  have h2 := SameOp.mul h (SameOp.refl q.inv)
  rw [C34_assoc, C34_assoc, (C34_inverse q hq).1, (C34_unit p).2, (C34_unit p').2] at h2
  exact h2

theorem index_unique {sym : List (Op ℝ)} (hd : sym.Pairwise fun p q => ¬SameOp p q) (i j : Fin sym.length) (h : SameOp sym[i] sym[j]) : i = j := by
  rw [List.pairwise_iff_getElem] at hd
  rcases Nat.lt_trichotomy i.val j.val with hlt | heq | hlt
  · exact absurd h (hd i j i.isLt j.isLt hlt)
  · ext; exact heq
  · exact absurd h.symm (hd j i j.isLt i.isLt hlt)

/-- Multiplication table of a space group. -/
theorem group_table {sym : List (Op ℝ)} (hg : IsSpaceGroup sym) :
    ∃ (mul : Fin sym.length → Fin sym.length → Fin sym.length) (one : Fin sym.length) (inv : Fin sym.length → Fin sym.length),
      (∀ j k, SameOp sym[mul j k] (sym[j].mul sym[k])) ∧ SameOp sym[one] Op.one ∧
      (∀ j, Function.Injective (mul j)) ∧ (∀ k, Function.Injective fun j => mul j k) ∧
      (∀ j, mul j (inv j) = one) ∧ (∀ j, mul (inv j) j = one) := by
  have uni : ∀ j : Fin sym.length, det sym[j].rot = 1 ∨ det sym[j].rot = -1 := fun j => hg.unimodular _ (List.getElem_mem j.isLt)
  have hmul : ∀ j k : Fin sym.length, ∃ l : Fin sym.length, SameOp sym[l] (sym[j].mul sym[k]) := by
    intro j k
    obtain ⟨r, hr, h⟩ := hg.mul _ (List.getElem_mem j.isLt) _ (List.getElem_mem k.isLt)
    obtain ⟨l, hl, rfl⟩ := List.mem_iff_getElem.1 hr
    exact ⟨⟨l, hl⟩, h⟩
  choose mul hmul using hmul
  obtain ⟨p, hp, hone⟩ := hg.one
  obtain ⟨o, ho, rfl⟩ := List.mem_iff_getElem.1 hp
  have linj : ∀ j, Function.Injective (mul j) := by
    intro j k k' h
    have h1 := hmul j k
    rw [h] at h1
    exact index_unique hg.distinct k k' (SameOp.cancel_left (uni j) (h1.symm.trans (hmul j k')))
  have rinj : ∀ k, Function.Injective fun j => mul j k := by
    intro k j j' h
    simp only at h
    have h1 := hmul j k
    rw [h] at h1
    exact index_unique hg.distinct j j' (SameOp.cancel_right (uni k) (h1.symm.trans (hmul j' k)))
  have hinv : ∀ j, ∃ k, mul j k = ⟨o, ho⟩ := fun j => (Finite.injective_iff_surjective.1 (linj j)) _
  choose inv hinv using hinv
  refine ⟨mul, ⟨o, ho⟩, inv, hmul, hone, linj, rinj, hinv, ?_⟩
  intro j
  -- (inv j) j is the unit: multiply by inv j on the right
  have h1 : SameOp (sym[j].mul sym[inv j]) Op.one := by
    have := hmul j (inv j); rw [hinv j] at this; exact this.symm.trans hone
  have h2 : SameOp (sym[inv j].mul sym[j]) Op.one := by
    refine SameOp.cancel_left (p := sym[j]) (uni j) ?_
    rw [← C34_assoc]
    have := SameOp.mul h1 (SameOp.refl sym[j])
    rw [(C34_unit sym[j]).1] at this
    rw [(C34_unit sym[j]).2]
    exact this
  exact index_unique hg.distinct _ _ ((hmul (inv j) j).trans (h2.trans hone.symm))

/-- The action of a space group on the reciprocal-space array. -/
theorem exists_act (S : Size) (hS : S.Pos) {sym : List (Op ℝ)} (hg : IsSpaceGroup sym) (hm : ∀ op ∈ sym, MeshOp S op) :
    ∃ A : Act sym.length (nr S), ∀ j (i : Fin (nr S)), ((A.tgt j i).val : Int) = target S sym[j] (gStart S i.val) ∧
      A.ph j i = phase sym[j] (gStart S i.val) ∧ A.ph j i = E (-gdot (gOf S i.val) sym[j].a) ∧
      Cong S (gOf S (A.tgt j i).val) (mulVM (gOf S i.val) sym[j].rot) := by
  obtain ⟨mul, one, inv, hmul, hone, linj, rinj, minv, invm⟩ := group_table hg
  have mesh : ∀ j : Fin sym.length, MeshOp S sym[j] := fun j => hm _ (List.getElem_mem j.isLt)
  have tgtE : ∀ (j : Fin sym.length) (i : Nat), target S sym[j] (gStart S i) = modIdx S (mulVM (gOf S i) sym[j].rot) := by
    intro j i
    rw [target_eq S hS]
    exact modIdx_congr (cong_mul (mesh j) (cong_gStart S i))
  have phE : ∀ (j : Fin sym.length) (i : Nat), phase sym[j] (gStart S i) = E (-gdot (gOf S i) sym[j].a) := by
    intro j i
    rw [phase_eq]
    obtain ⟨n, hn⟩ := gdot_cong (mesh j).2 (cong_gStart S i)
    exact E_congr _ _ (-n) (by rw [hn]; push_cast; ring)
  have rng : ∀ g, (modIdx S g).toNat < nr S := fun g => by have := modIdx_range S hS g; omega
  have tgtC : ∀ (j : Fin sym.length) (i : Nat), Cong S (gOf S (modIdx S (mulVM (gOf S i) sym[j].rot)).toNat) (mulVM (gOf S i) sym[j].rot) :=
    fun j i => gOf_modIdx S hS _
  refine ⟨{ mul := mul, one := one, inv := inv,
            tgt := fun j i => ⟨(modIdx S (mulVM (gOf S i.val) sym[j].rot)).toNat, rng _⟩,
            ph := fun j i => E (-gdot (gOf S i.val) sym[j].a),
            tgt_mul := ?_, ph_mul := ?_, tgt_one := ?_, ph_one := ?_, left_inj := linj, right_inj := rinj, mul_inv := minv, inv_mul := invm,
            unit := fun j i => E_unit _ }, ?_⟩
  · intro j k i
    ext
    simp only
    congr 1
    rw [(hmul j k).1]
    refine Eq.trans ?_ (modIdx_congr (cong_mul (mesh k) (tgtC j i.val))).symm
    congr 1
    simp only [Op.mul]
    funext c
    simp only [mulVM, mulMM]
    ring
  · intro j k i
    simp only
    obtain ⟨n1, h1⟩ := gdot_int (gOf S i.val) _ _ (hmul j k).2
    obtain ⟨n2, h2⟩ := gdot_cong (mesh k).2 (tgtC j i.val)
    rw [← E_add]
    refine E_congr _ _ (-n1 + n2) ?_
    rw [h1, h2]
    have h3 : gdot (gOf S i.val) (sym[j].mul sym[k]).a = gdot (mulVM (gOf S i.val) sym[j].rot) sym[k].a + gdot (gOf S i.val) sym[j].a := by
      rw [← gdot_mul, ← gdot_add]; rfl
    rw [h3]
    push_cast
    ring
  · intro i
    ext
    simp only
    rw [hone.1]
    have : mulVM (gOf S i.val) (Op.one : Op ℝ).rot = gOf S i.val := by
      funext c
      simp only [mulVM, Op.one, diag, vec]
      fin_cases c <;> simp
    rw [this, modIdx_gOf S hS _ i.isLt]
    simp
  · intro i
    obtain ⟨n1, h1⟩ := gdot_int (gOf S i.val) _ _ hone.2
    rw [h1]
    have : gdot (gOf S i.val) (Op.one : Op ℝ).a = 0 := by
      unfold gdot; rw [Fin.sum_univ_three]; simp [Op.one, vec]
    rw [this, zero_add, ← Int.cast_neg]
    exact E_int _
  · intro j i
    refine ⟨?_, (phE j i.val).symm, rfl, tgtC j i.val⟩
    rw [tgtE, Int.toNat_of_nonneg (modIdx_range S hS _).1]

/-- The result of the whole computation on the array elements. -/
theorem symmetrize_run (S : Size) (hS : S.Pos) {sym : List (Op ℝ)} (hg : IsSpaceGroup sym) (A : Act sym.length (nr S))
    (hA : ∀ j (i : Fin (nr S)), ((A.tgt j i).val : Int) = target S sym[j] (gStart S i.val) ∧ A.ph j i = phase sym[j] (gStart S i.val)) :
    ∃ classes, initSymmIndex S sym = .ok classes ∧ ∀ (x : Arr) (p : Fin (nr S)),
      symmetrize sym.length classes x ((p.val : Nat) : Int) = A.total x p / sym.length := by
  have hent : ∀ i : Fin (nr S), entries S sym (gStart S i.val) = A.entries i := by
    intro i
    unfold entries Act.entries
    apply List.ext_getElem
    · simp
    · intro m h1 h2
      have hm : m < sym.length := by simpa using h1
      have := hA ⟨m, hm⟩ i
      simp only [List.getElem_map, List.getElem_ofFn]
      rw [this.1, this.2]
      rfl
  have hn : 0 < sym.length := by
    obtain ⟨p, hp, _⟩ := hg.one
    exact List.length_pos_of_mem hp
  obtain ⟨starts, hb, h1, h2, h3⟩ := A.build_spec (entries S sym) (gStart S) hent (nr S) 0 (by omega) [] (by simp) (by simp)
  obtain ⟨r1, r2⟩ := A.run_spec hn starts h1 (0 : Arr)
  refine ⟨starts.map fun s => ((A.fib s s, A.entries s) : Class), ?_, ?_⟩
  · unfold initSymmIndex gLoop
    have hnr : 0 < nr S := by
      unfold nr
      exact Nat.mul_pos (Nat.mul_pos hS.1 hS.2.1) hS.2.2
    rw [gLoopFrom_eq S hS (nr S) le_rfl (nr S) 0 hnr (by omega)]
    exact hb
  · intro x p
    unfold symmetrize
    split
    · rename_i hone
      have hc : (sym.length : ℂ) = 1 := by exact_mod_cast hone
      rw [hc]
      have huniq : ∀ j : Fin sym.length, j = A.one := fun j => by
        have := j.isLt; have := A.one.isLt; ext; omega
      unfold Act.total
      have : (Finset.univ : Finset (Fin sym.length)) = {A.one} := by
        ext j; simp [huniq j]
      rw [this, Finset.sum_singleton, A.ph_one, A.tgt_one]
      simp
    · rcases h3 p (by omega) with h | h
      · simp at h
      · exact (A.run_spec hn starts h1 x).1 p h

theorem Act.tgt_bij (j : Fin n) : Function.Bijective (A.tgt j) := by
  refine (Finite.injective_iff_bijective).1 fun p q h => ?_
  have := congrArg (A.tgt (A.inv j)) h
  rwa [← A.tgt_mul, ← A.tgt_mul, A.mul_inv, A.tgt_one, A.tgt_one] at this

theorem Act.ph_inv (j : Fin n) (p : Fin N) : A.ph (A.inv j) (A.tgt j p) = conj (A.ph j p) := by
  have h1 := A.ph_mul j (A.inv j) p
  rw [A.mul_inv, A.ph_one] at h1
  have h2 := A.unit j p
  have : A.ph j p ≠ 0 := by intro h; rw [h] at h1; simp at h1
  exact mul_left_cancel₀ this (h1.symm.trans h2.symm)

theorem Act.inv_bij : Function.Bijective A.inv := by
  refine (Finite.injective_iff_bijective).1 fun p q h => ?_
  apply A.right_inj (A.inv p)
  show A.mul p (A.inv p) = A.mul q (A.inv p)
  rw [A.mul_inv, h, A.mul_inv]

/-- Averages are idempotent. -/
theorem Act.total_total (x y : Arr) (h : ∀ p : Fin N, y ((p.val : Nat) : Int) = A.total x p / n) (p : Fin N) :
    A.total y p = A.total x p := by
  have hn : (n : ℂ) ≠ 0 := by
    have := A.one.isLt
    exact_mod_cast (by omega : n ≠ 0)
  have e : ∀ j, A.ph j p * y (((A.tgt j p).val : Nat) : Int) = A.total x p / n := by
    intro j
    rw [h, A.total_tgt x j p]; ring
  have e2 : A.total y p = ∑ j, A.ph j p * y (((A.tgt j p).val : Nat) : Int) := rfl
  rw [e2, Finset.sum_congr rfl fun j _ => e j, Finset.sum_const, Finset.card_univ, Fintype.card_fin, nsmul_eq_mul]
  field_simp

theorem Act.selfadjoint (x y : Arr) :
    ∑ p : Fin N, conj (y ((p.val : Nat) : Int)) * A.total x p = ∑ p : Fin N, conj (A.total y p) * x ((p.val : Nat) : Int) := by
  unfold Act.total
  simp only [Finset.mul_sum, map_sum, Finset.sum_mul]
  rw [Finset.sum_comm, Finset.sum_comm (f := fun p j => conj (A.ph j p * y (((A.tgt j p).val : Nat) : Int)) * x ((p.val : Nat) : Int))]
  rw [← A.inv_bij.sum_comp (fun j => ∑ p, conj (A.ph j p * y (((A.tgt j p).val : Nat) : Int)) * x ((p.val : Nat) : Int))]
  refine Finset.sum_congr rfl fun j _ => ?_
  rw [← (A.tgt_bij j).sum_comp (fun p => conj (A.ph (A.inv j) p * y (((A.tgt (A.inv j) p).val : Nat) : Int)) * x ((p.val : Nat) : Int))]
  refine Finset.sum_congr rfl fun p _ => ?_
  rw [A.ph_inv, ← A.tgt_mul, A.mul_inv, A.tgt_one]
  simp only [map_mul, Complex.conj_conj]
  ring

theorem gdot_apply (g : V3 Int) (op : Op ℝ) (r : V3 ℝ) : gdot g (op.applyReal r) = gdot (mulVM g op.rot) r + gdot g op.a := by
  rw [← gdot_mul, ← gdot_add]; rfl

theorem fieldAt_fin (S : Size) (x : Arr) (r : V3 ℝ) : fieldAt S x r = ∑ i : Fin (nr S), x ((i.val : Nat) : Int) * E (gdot (gOf S i.val) r) := by
  rw [fieldAt_eq, Finset.sum_range]

/-- The field seen through one operation. -/
theorem field_op (S : Size) {sym : List (Op ℝ)} (A : Act sym.length (nr S))
    (hph : ∀ j (i : Fin (nr S)), A.ph j i = E (-gdot (gOf S i.val) sym[j].a))
    (hc : ∀ j (i : Fin (nr S)), Cong S (gOf S (A.tgt j i).val) (mulVM (gOf S i.val) sym[j].rot))
    (x : Arr) (r : V3 ℝ) (hr : MeshPoint S r) (j : Fin sym.length) :
    fieldAt S x (sym[j].applyReal r)
      = ∑ i : Fin (nr S), A.ph (A.inv j) i * x (((A.tgt (A.inv j) i).val : Nat) : Int) * E (gdot (gOf S i.val) r) := by
  rw [fieldAt_fin, ← (A.tgt_bij j).sum_comp (fun i => A.ph (A.inv j) i * x (((A.tgt (A.inv j) i).val : Nat) : Int) * E (gdot (gOf S i.val) r))]
  refine Finset.sum_congr rfl fun p _ => ?_
  rw [A.ph_inv, ← A.tgt_mul, A.mul_inv, A.tgt_one, hph, E_conj, neg_neg, gdot_apply, E_add]
  obtain ⟨n, hn⟩ := gdot_cong hr (hc j p)
  rw [E_congr _ _ n hn]
  ring

end
end Jdftx.Sym
