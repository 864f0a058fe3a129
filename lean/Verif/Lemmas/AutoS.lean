import Verif.Model.AutoS
import Verif.Props.FftSuitable
import Mathlib.Order.Filter.AtTopBot.Basic
import Mathlib.Data.Fintype.Card
import Mathlib.Tactic.FinCases

/-! # Lemmas on the automatic FFT box -/
namespace Jdftx.Grid
open Jdftx.Spec

theorem gcdLoop_eq (fuel x y : Nat) (h : y < fuel) : gcdLoop fuel x y = Nat.gcd x y := by
  induction fuel generalizing x y with
  | zero => omega
  | succ k ih =>
    unfold gcdLoop
    split
    · rename_i h0; subst h0; simp
    · rename_i h0
      have := Nat.mod_lt x (Nat.pos_of_ne_zero h0)
      rw [ih _ _ (by omega), Nat.gcd_comm, ← Nat.gcd_rec, Nat.gcd_comm]

theorem cgcd_eq (x y : Nat) : cgcd x y = Nat.gcd x y := gcdLoop_eq _ _ _ (by omega)

theorem ratiosOf_dvd (rots : List (Fin 3 → Fin 3 → Int)) (m : Fin 3 → Fin 3 → Int) (hm : m ∈ rots) (j k : Fin 3) :
    ((ratiosOf rots j k : Nat) : Int) ∣ m j k := by
  unfold ratiosOf
  suffices h : ∀ (l : List (Fin 3 → Fin 3 → Int)) (r0 : Nat),
      (l.foldl (fun r m => if m j k ≠ 0 then cgcd r (m j k).natAbs else r) r0 ∣ r0) ∧
      ∀ m ∈ l, ((l.foldl (fun r m => if m j k ≠ 0 then cgcd r (m j k).natAbs else r) r0 : Nat) : Int) ∣ m j k from
    (h rots 0).2 m hm
  intro l
  induction l with
  | nil => intro r0; simp
  | cons a rest ih =>
    intro r0
    rw [List.foldl_cons]
    set r1 := (if a j k ≠ 0 then cgcd r0 (a j k).natAbs else r0) with hr1
    have h1 : r1 ∣ r0 := by
      rw [hr1]; split
      · rw [cgcd_eq]; exact Nat.gcd_dvd_left _ _
      · exact dvd_refl _
    have h2 : (r1 : Int) ∣ a j k := by
      rw [hr1]; split
      · rw [cgcd_eq, ← Int.dvd_natAbs, Int.natCast_dvd_natCast]; exact Nat.gcd_dvd_right _ _
      · rename_i h; simp only [ne_eq, Decidable.not_not] at h; rw [h]; exact dvd_zero _
    refine ⟨(ih r1).1.trans h1, ?_⟩
    intro m hm
    rcases List.mem_cons.1 hm with rfl | hm
    · exact (Int.natCast_dvd_natCast.2 (ih r1).1).trans h2
    · exact (ih r1).2 m hm

variable (r : Fin 3 → Fin 3 → Nat)

/-- Directions coupled by some rotation. -/
def Linked (j k : Fin 3) : Prop := r j k ≠ 0 ∨ r k j ≠ 0

/-- Both constraints between two directions. -/
def Comm (Sb : Fin 3 → Nat) (a b : Fin 3) : Prop := Sb b ∣ r a b * Sb a ∧ Sb a ∣ r b a * Sb b

theorem Linked.symm {r : Fin 3 → Fin 3 → Nat} {a b : Fin 3} (h : Linked r a b) : Linked r b a := Or.symm h
theorem Comm.symm {r : Fin 3 → Fin 3 → Nat} {Sb a b} (h : Comm r Sb a b) : Comm r Sb b a := And.symm h

theorem comm_of_not_linked (Sb : Fin 3 → Nat) (a b : Fin 3) (h : ¬ Linked r a b) : Comm r Sb a b := by
  unfold Linked at h; push Not at h
  unfold Comm; rw [h.1, h.2]; simp

/-- Invariant of the recursion; `D` are the directions finished by earlier basis entries. -/
structure PInv (D : Fin 3 → Prop) (st : SbState) : Prop where
  done_iff : ∀ i, st.done i = true ↔ (st.Sb i ≠ 0 ∨ D i)
  disj : ∀ i, D i → st.Sb i = 0
  two : (∃ i, st.Sb i = 0) → ∀ a b, a ≠ b → st.Sb a ≠ 0 → st.Sb b ≠ 0 → Comm r st.Sb a b

/-- What every step preserves. -/
structure Ext (st st' : SbState) : Prop where
  ne : ∀ i, st.Sb i ≠ 0 → st'.Sb i ≠ 0
  comm : ∀ a b, st.Sb a ≠ 0 → st.Sb b ≠ 0 → Comm r st.Sb a b → Comm r st'.Sb a b
  done : ∀ i, st.done i = true → st'.done i = true

theorem Ext.refl (st : SbState) : Ext r st st := ⟨fun _ h => h, fun _ _ _ _ h => h, fun _ h => h⟩
theorem Ext.trans {r : Fin 3 → Fin 3 → Nat} {a b c : SbState} (h : Ext r a b) (h' : Ext r b c) : Ext r a c :=
  ⟨fun i hi => h'.ne i (h.ne i hi), fun x y hx hy hc => h'.comm x y (h.ne x hx) (h.ne y hy) (h.comm x y hx hy hc),
    fun i hi => h'.done i (h.done i hi)⟩

/-- Direction `a` is completely processed. -/
def Good (st : SbState) (a : Fin 3) : Prop :=
  st.Sb a ≠ 0 ∧ ∀ b, b ≠ a → Linked r a b → st.Sb b ≠ 0 ∧ Comm r st.Sb a b

theorem Good.ext {r : Fin 3 → Fin 3 → Nat} {st st' : SbState} {a : Fin 3} (h : Good r st a) (he : Ext r st st') :
    Good r st' a :=
  ⟨he.ne a h.1, fun b hb hl => ⟨he.ne b (h.2 b hb hl).1, he.comm a b h.1 (h.2 b hb hl).1 (h.2 b hb hl).2⟩⟩

theorem modNZ_ok (a b : Nat) (h : b ≠ 0) : modNZ a b = .ok (decide (¬ b ∣ a)) := by
  simp [modNZ, h, Nat.dvd_iff_mod_eq_zero]

theorem violates_ok (Sb : Fin 3 → Nat) (j k : Fin 3) (hj : Sb j ≠ 0) (hk : Sb k ≠ 0) :
    ∃ v, violates r Sb j k = .ok v ∧ (v = false ↔ Comm r Sb j k) := by
  unfold violates
  rw [modNZ_ok _ _ hk, modNZ_ok _ _ hj, Res.bind_ok]
  by_cases h1 : Sb k ∣ r j k * Sb j
  · simp only [h1, not_true_eq_false, decide_false, Bool.false_eq_true, if_false]
    exact ⟨_, rfl, by simp [Comm, h1]⟩
  · simp only [h1, not_false_eq_true, decide_true, if_true]
    exact ⟨true, rfl, by simp [Comm, h1]⟩

theorem extend_same (Sb : Fin 3 → Nat) (j k : Fin 3) (hj : Sb j ≠ 0) (hl : Linked r j k) :
    extend r Sb j k k ≠ 0 := by
  unfold extend
  split
  · simp only [if_true]; exact Nat.mul_ne_zero hj (by omega)
  · rename_i h
    simp only [ne_eq, Decidable.not_not] at h
    simp only [if_true]
    rcases hl with hl | hl
    · exact Nat.mul_ne_zero hl hj
    · exact absurd h hl

theorem extend_other (Sb : Fin 3 → Nat) (j k i : Fin 3) (hi : i ≠ k) : extend r Sb j k i ≠ 0 ↔ Sb i ≠ 0 := by
  unfold extend
  split
  · rename_i h; simp [hi, h]
  · simp [hi]

theorem extend_comm_jk (Sb : Fin 3 → Nat) (j k : Fin 3) (hjk : j ≠ k) :
    Comm r (extend r Sb j k) j k := by
  unfold extend Comm
  split
  · simp only [if_true, hjk, if_false]
    constructor
    · rcases Nat.eq_zero_or_pos (r j k) with h | h
      · simp [h]
      · rw [max_eq_right (by omega)]; exact ⟨r k j, by ring⟩
    · exact ⟨max 1 (r j k), by ring⟩
  · rename_i h
    simp only [ne_eq, Decidable.not_not] at h
    simp only [if_true, hjk, if_false, h]
    simp

theorem extend_comm (Sb : Fin 3 → Nat) (j k a b : Fin 3) (ha : a ≠ k) (hb : b ≠ k) (h : Comm r Sb a b) :
    Comm r (extend r Sb j k) a b := by
  unfold extend Comm at *
  split
  · simp only [ha, hb, if_false]
    exact ⟨by rw [← mul_assoc]; exact Nat.mul_dvd_mul_right h.1 _, by rw [← mul_assoc]; exact Nat.mul_dvd_mul_right h.2 _⟩
  · simpa only [ha, hb, if_false] using h

/-- Number of directions not yet done. -/
def undone (st : SbState) : Nat := (Finset.univ.filter fun i => st.done i = false).card

theorem undone_mark (st : SbState) (j : Fin 3) (h : st.done j = false) :
    undone { st with done := fun i => if i = j then true else st.done i } < undone st := by
  unfold undone
  apply Finset.card_lt_card
  rw [Finset.ssubset_iff_of_subset]
  · exact ⟨j, by simp [h], by simp⟩
  · intro i hi
    simp only [Finset.mem_filter, Finset.mem_univ, true_and] at *
    split at hi
    · simp at hi
    · exact hi

theorem undone_ext {r : Fin 3 → Fin 3 → Nat} {st st' : SbState} (h : Ext r st st') : undone st' ≤ undone st := by
  unfold undone
  apply Finset.card_le_card
  intro i hi
  simp only [Finset.mem_filter, Finset.mem_univ, true_and] at *
  by_contra hc
  rw [Bool.not_eq_false] at hc
  rw [h.done i hc] at hi
  exact absurd hi (by simp)

/-- Specification of a call `processSb(j)`. -/
def CallSpec (D : Fin 3 → Prop) (f : SbState → Fin 3 → Res SbState) (n : Nat) : Prop :=
  ∀ st j, undone st ≤ n → st.done j = false → 
    PInv r D { st with done := fun i => if i = j then true else st.done i } →
    st.Sb j ≠ 0 → 
    ∃ st', f st j = .ok st' ∧ PInv r D st' ∧
      Ext r { st with done := fun i => if i = j then true else st.done i } st' ∧
      ∀ a, st'.done a = true → st.done a = false → Good r st' a

theorem fin3_third (i j k : Fin 3) (hij : i ≠ j) (hik : i ≠ k) (hjk : j ≠ k) (a : Fin 3) (ha : a ≠ i) :
    a = j ∨ a = k := by
  revert i j k a; decide

theorem visit_spec (D : Fin 3 → Prop) (hD : ∀ a b, D a → Linked r a b → D b)
    (f : SbState → Fin 3 → Res SbState) (n : Nat) (hf : CallSpec r D f n)
    (st : SbState) (j k : Fin 3) (hn : undone st ≤ n) (hinv : PInv r D st) (hj : st.Sb j ≠ 0) :
    ∃ st', visit f r j st k = .ok st' ∧ PInv r D st' ∧ Ext r st st' ∧
      (∀ a, st'.done a = true → st.done a = false → Good r st' a) ∧
      (k ≠ j → Linked r j k → st'.Sb k ≠ 0 ∧ Comm r st'.Sb j k) := by
  unfold visit
  split
  · rename_i hc
    obtain ⟨hjk, hl⟩ := hc
    split
    · rename_i hk
      obtain ⟨v, hv, hvc⟩ := violates_ok r st.Sb j k hj hk
      rw [hv, Res.bind_ok]
      cases v with
      | false =>
        refine ⟨st, rfl, hinv, Ext.refl r st, fun a h1 h2 => by rw [h1] at h2; exact absurd h2 (by simp), fun _ _ => ⟨hk, hvc.1 rfl⟩⟩
      | true =>
        have hnc : ¬ Comm r st.Sb j k := fun h => by simpa using hvc.2 h
        have hall : ∀ i, st.Sb i ≠ 0 := by
          intro i h0
          exact hnc (hinv.two ⟨i, h0⟩ j k hjk hj hk)
        refine ⟨{ st with Sb := fun _ => 1 }, rfl, ⟨?_, ?_, ?_⟩, ⟨?_, ?_, ?_⟩, ?_, ?_⟩
        · intro i; rw [hinv.done_iff i]
          exact ⟨fun _ => Or.inl (by simp), fun _ => Or.inl (hall i)⟩
        · intro i hi; exact absurd (hinv.disj i hi) (hall i)
        · rintro ⟨i, h⟩; exact absurd h (by simp)
        · intro i _; simp
        · intro a b _ _ _; exact ⟨one_dvd _, one_dvd _⟩
        · intro i hi; exact hi
        · intro a h1 h2
          simp only at h1
          rw [h1] at h2; exact absurd h2 (by simp)
        · intro _ _; exact ⟨by simp, one_dvd _, one_dvd _⟩
    · rename_i hk
      simp only [ne_eq, Decidable.not_not] at hk
      have hDj : ¬ D j := fun h => hj (hinv.disj j h)
      have hDk : ¬ D k := fun h => hDj (hD k j h (Or.symm hl))
      have hdk : st.done k = false := by
        rw [← Bool.not_eq_true, hinv.done_iff k]; simp [hk, hDk]
      have hek := extend_same r st.Sb j k hj hl
      have heo := fun i (hi : i ≠ k) => extend_other r st.Sb j k i hi
      obtain ⟨st', h1, h2, h3, h4⟩ := hf { st with Sb := extend r st.Sb j k } k hn hdk
        ⟨by
          intro i
          simp only
          by_cases hi : i = k
          · subst hi; simp [hek]
          · simp only [hi, if_false]; rw [hinv.done_iff i, heo i hi],
        by
          intro i hi
          simp only
          have hik : i ≠ k := fun h => hDk (h ▸ hi)
          by_contra hc
          exact ((heo i hik).1 hc) (hinv.disj i hi),
        by
          rintro ⟨i, hi⟩ a b hab ha hb
          simp only at hi ha hb ⊢
          have hik : i ≠ k := fun h => hek (h ▸ hi)
          have hi0 : st.Sb i = 0 := by
            by_contra hc; exact ((heo i hik).2 hc) hi
          have hij : i ≠ j := fun h => hj (h ▸ hi0)
          have ha' := fin3_third i j k hij hik hjk a (fun h => ha (h ▸ hi))
          have hb' := fin3_third i j k hij hik hjk b (fun h => hb (h ▸ hi))
          have hc := extend_comm_jk r st.Sb j k hjk
          rcases ha' with rfl | rfl <;> rcases hb' with rfl | rfl
          · exact absurd rfl hab
          · exact hc
          · exact hc.symm
          · exact absurd rfl hab⟩ hek
      have hext : Ext r st { Sb := extend r st.Sb j k, done := fun i => if i = k then true else st.done i } := by
        refine ⟨?_, ?_, ?_⟩
        · intro i hi
          by_cases hik : i = k
          · exact absurd hk (hik ▸ hi)
          · exact (heo i hik).2 hi
        · intro a b ha hb hc
          exact extend_comm r st.Sb j k a b (fun h => ha (h ▸ hk)) (fun h => hb (h ▸ hk)) hc
        · intro i hi; simp only; split
          · rfl
          · exact hi
      refine ⟨st', h1, h2, hext.trans h3, h4, fun _ _ => ⟨h3.ne k hek, ?_⟩⟩
      exact h3.comm j k ((heo j hjk).2 hj) hek (extend_comm_jk r st.Sb j k hjk)
  · rename_i hc
    refine ⟨st, rfl, hinv, Ext.refl r st, fun a h1 h2 => by rw [h1] at h2; exact absurd h2 (by simp), fun h1 h2 => absurd ⟨fun h => h1 h.symm, h2⟩ hc⟩

theorem processSb_spec (D : Fin 3 → Prop) (hD : ∀ a b, D a → Linked r a b → D b) (n fuel : Nat) (hf : n ≤ fuel) :
    CallSpec r D (processSb r fuel) n := by
  induction n generalizing fuel with
  | zero =>
    intro st j hn hdj
    exfalso
    unfold undone at hn
    have : j ∈ Finset.univ.filter fun i => st.done i = false := by simp [hdj]
    exact Finset.card_ne_zero_of_mem this (by omega)
  | succ n ih =>
    obtain ⟨fuel, rfl⟩ : ∃ f, fuel = f + 1 := ⟨fuel - 1, by omega⟩
    have hrec := ih fuel (by omega)
    intro st j hn hdj hinv hj
    unfold processSb
    simp only
    generalize hst0 : ({ st with done := fun i => if i = j then true else st.done i } : SbState) = st0 at hinv ⊢
    have hn0 : undone st0 ≤ n := by
      have := undone_mark st j hdj
      rw [hst0] at this; omega
    have hj0 : st0.Sb j ≠ 0 := by rw [← hst0]; exact hj
    obtain ⟨s1, a1, b1, c1, d1, e1⟩ := visit_spec r D hD _ n hrec st0 j 0 hn0 hinv hj0
    obtain ⟨s2, a2, b2, c2, d2, e2⟩ := visit_spec r D hD _ n hrec s1 j 1 ((undone_ext c1).trans hn0) b1 (c1.ne j hj0)
    obtain ⟨s3, a3, b3, c3, d3, e3⟩ := visit_spec r D hD _ n hrec s2 j 2
      ((undone_ext (c1.trans c2)).trans hn0) b2 ((c1.trans c2).ne j hj0)
    have hj1 := c1.ne j hj0
    have hj2 := c2.ne j hj1
    have hj3 := c3.ne j hj2
    refine ⟨s3, by rw [a1, Res.bind_ok, a2, Res.bind_ok, a3], b3, (c1.trans c2).trans c3, ?_⟩
    intro a ha hna
    by_cases haj : a = j
    · subst haj
      refine ⟨hj3, ?_⟩
      intro b hb hl
      have h3 : b = 0 ∨ b = 1 ∨ b = 2 := by clear hl hb; revert b; decide
      rcases h3 with rfl | rfl | rfl
      · have := e1 hb hl
        exact ⟨(c2.trans c3).ne _ this.1, (c2.trans c3).comm _ _ hj1 this.1 this.2⟩
      · have := e2 hb hl
        exact ⟨c3.ne _ this.1, c3.comm _ _ hj2 this.1 this.2⟩
      · exact e3 hb hl
    · have h0 : st0.done a = false := by rw [← hst0]; simp [haj, hna]
      by_cases h1 : s1.done a = true
      · exact ((d1 a h1 h0).ext c2).ext c3
      · rw [Bool.not_eq_true] at h1
        by_cases h2 : s2.done a = true
        · exact (d2 a h2 h1).ext c3
        · rw [Bool.not_eq_true] at h2
          exact d3 a ha h2

open Filter in
theorem fftSuitable_eventually (N : Int) (hN : N ≠ 0) :
    ∃ b : Bool, (b = true ↔ Smooth7 N) ∧ ∀ᶠ f in atTop, fftSuitable f N = .ok b := by
  obtain ⟨b, f0, h1, h2⟩ := C25_exact_partial N hN
  exact ⟨b, h2, eventually_atTop.2 ⟨f0, h1⟩⟩

theorem scaleLoop_ok (i s fuel fuel' : Nat) (hs : 0 < s) (h1 : ∀ i' < i, ¬ Smooth7 ((s + 2 * i' : Nat) : Int))
    (h2 : Smooth7 ((s + 2 * i : Nat) : Int)) (hf : s + 2 * i < fuel) (hf' : i < fuel') :
    scaleLoop fuel fuel' s = .ok (s + 2 * i) := by
  induction i generalizing s fuel' with
  | zero =>
    obtain ⟨k, rfl⟩ : ∃ k, fuel' = k + 1 := ⟨fuel' - 1, by omega⟩
    obtain ⟨b, hb1, hb2⟩ := fftSuitable_spec (s : Int) (by omega) fuel (by omega)
    have : b = true := hb2.2 (by simpa using h2)
    subst this
    unfold scaleLoop
    rw [hb1]; rfl
  | succ i ih =>
    obtain ⟨k, rfl⟩ : ∃ k, fuel' = k + 1 := ⟨fuel' - 1, by omega⟩
    obtain ⟨b, hb1, hb2⟩ := fftSuitable_spec (s : Int) (by omega) fuel (by omega)
    have : b = false := by
      rw [← Bool.not_eq_true, hb2]; simpa using h1 0 (by omega)
    subst this
    unfold scaleLoop
    rw [hb1, Res.bind_ok]
    simp only [Bool.false_eq_true, if_false]
    rw [ih (s + 2) k (by omega) ?_ ?_ (by omega) (by omega)]
    · congr 1; ring
    · intro i' hi'
      have := h1 (i' + 1) (by omega)
      rwa [show s + 2 * (i' + 1) = s + 2 + 2 * i' by ring] at this
    · rwa [show s + 2 * (i + 1) = s + 2 + 2 * i by ring] at h2

open Filter in
/-- The scale search ends at an even suitable number not below its start. -/
theorem scaleLoop_eventually (s : Nat) (hs : 0 < s) (he : 2 ∣ s) :
    ∃ t, s ≤ t ∧ 2 ∣ t ∧ Smooth7 (t : Int) ∧ ∀ᶠ f in atTop, scaleLoop f f s = .ok t := by
  have hex : ∃ i, Smooth7 ((s + 2 * i : Nat) : Int) := by
    have hlt : s < 2 ^ s := Nat.lt_two_pow_self
    have h2 : 2 ∣ 2 ^ s := dvd_pow_self 2 (by omega)
    refine ⟨(2 ^ s - s) / 2, s, 0, 0, 0, ?_⟩
    have : s + 2 * ((2 ^ s - s) / 2) = 2 ^ s := by
      obtain ⟨a, ha⟩ := he; obtain ⟨b, hb⟩ := h2; omega
    rw [this]; simp
  classical
  refine ⟨s + 2 * Nat.find hex, by omega, ?_, Nat.find_spec hex, ?_⟩
  · obtain ⟨a, ha⟩ := he; exact ⟨a + Nat.find hex, by omega⟩
  · rw [eventually_atTop]
    exact ⟨s + 2 * Nat.find hex + 1, fun f hf => scaleLoop_ok _ s f f hs (fun i' hi' => Nat.find_min hex hi')
      (Nat.find_spec hex) (by omega) (by omega)⟩

theorem smooth_mul {a b : Int} (ha : Smooth7 a) (hb : Smooth7 b) : Smooth7 (a * b) := by
  obtain ⟨a1, a2, a3, a4, rfl⟩ := ha
  obtain ⟨b1, b2, b3, b4, rfl⟩ := hb
  exact ⟨a1 + b1, a2 + b2, a3 + b3, a4 + b4, by ring⟩

open Filter in
theorem suitEntry_eventually (acc : Bool) (n : Nat) :
    ∃ b : Bool, (b = true ↔ acc = true ∧ (n ≠ 0 → Smooth7 (n : Int))) ∧ ∀ᶠ f in atTop, suitEntry f acc n = .ok b := by
  unfold suitEntry
  by_cases hn : n = 0
  · exact ⟨acc, by simp [hn], by simp [hn]⟩
  · cases acc with
    | false => exact ⟨false, by simp, by simp [hn]⟩
    | true =>
      obtain ⟨b, h1, h2⟩ := fftSuitable_eventually (n : Int) (by omega)
      exact ⟨b, by simp [hn, h1], by simpa [hn] using h2⟩

open Filter in
/-- The suitability fallback keeps the support and the constraints. -/
theorem makeSuitable_eventually (Sb : Fin 3 → Nat) (hc : ∀ a b, a ≠ b → Sb a ≠ 0 → Sb b ≠ 0 → Comm r Sb a b) :
    ∃ Sb', (∀ i, Sb' i ≠ 0 ↔ Sb i ≠ 0) ∧ (∀ a b, a ≠ b → Sb' a ≠ 0 → Sb' b ≠ 0 → Comm r Sb' a b) ∧
      (∀ i, Sb' i ≠ 0 → Smooth7 (Sb' i : Int)) ∧ ∀ᶠ f in atTop, makeSuitable f Sb = .ok Sb' := by
  obtain ⟨b0, h0, e0⟩ := suitEntry_eventually true (Sb 0)
  obtain ⟨b1, h1, e1⟩ := suitEntry_eventually b0 (Sb 1)
  obtain ⟨b2, h2, e2⟩ := suitEntry_eventually b1 (Sb 2)
  have hev : ∀ᶠ f in atTop, makeSuitable f Sb = .ok (if b2 then Sb else fun k => if Sb k ≠ 0 then 1 else 0) := by
    filter_upwards [e0, e1, e2] with f f0 f1 f2
    unfold makeSuitable
    rw [f0, Res.bind_ok, f1, Res.bind_ok, f2, Res.bind_ok]; rfl
  cases b2 with
  | true =>
    refine ⟨Sb, fun i => Iff.rfl, hc, ?_, by simpa using hev⟩
    have hh := h2.1 rfl
    have hh1 := h1.1 hh.1
    have hh0 := h0.1 hh1.1
    intro i hi
    have h3 : i = 0 ∨ i = 1 ∨ i = 2 := by clear hi; revert i; decide
    rcases h3 with rfl | rfl | rfl
    · exact hh0.2 hi
    · exact hh1.2 hi
    · exact hh.2 hi
  | false =>
    refine ⟨fun k => if Sb k ≠ 0 then 1 else 0, ?_, ?_, ?_, by simpa using hev⟩
    · intro i; by_cases h : Sb i = 0 <;> simp [h]
    · intro a b _ ha hb
      have ha' : Sb a ≠ 0 := by intro h; simp [h] at ha
      have hb' : Sb b ≠ 0 := by intro h; simp [h] at hb
      simp [Comm, ha', hb']
    · intro i hi
      have hi' : Sb i ≠ 0 := by intro h; simp [h] at hi
      exact ⟨0, 0, 0, 0, by simp [hi']⟩

theorem gcdReduce_ok (d : Fin 3 → Nat) (j : Fin 3) (hj : d j ≠ 0)
    (hc : ∀ a b, a ≠ b → d a ≠ 0 → d b ≠ 0 → Comm r d a b) :
    ∃ d', gcdReduce d = .ok d' ∧ (∀ i, d' i ≠ 0 ↔ d i ≠ 0) ∧
      ∀ a b, a ≠ b → d' a ≠ 0 → d' b ≠ 0 → Comm r d' a b := by
  unfold gcdReduce
  simp only [cgcd_eq]
  generalize hg : ((d 0).gcd (d 1)).gcd (d 2) = g
  have hd : ∀ i, g ∣ d i := by
    intro i
    have h3 : i = 0 ∨ i = 1 ∨ i = 2 := by revert i; decide
    rw [← hg]
    rcases h3 with rfl | rfl | rfl
    · exact (Nat.gcd_dvd_left _ _).trans (Nat.gcd_dvd_left _ _)
    · exact (Nat.gcd_dvd_left _ _).trans (Nat.gcd_dvd_right _ _)
    · exact Nat.gcd_dvd_right _ _
  have hg0 : g ≠ 0 := fun h => hj (by have := hd j; rw [h] at this; exact Nat.eq_zero_of_zero_dvd this)
  have hnz : ∀ i, d i / g ≠ 0 ↔ d i ≠ 0 := by
    intro i
    obtain ⟨q, hq⟩ := hd i
    rw [hq, Nat.mul_div_cancel_left _ (Nat.pos_of_ne_zero hg0)]
    simp [hg0]
  rw [if_neg hg0]
  refine ⟨_, rfl, hnz, ?_⟩
  intro a b hab ha hb
  have := hc a b hab ((hnz a).1 ha) ((hnz b).1 hb)
  obtain ⟨q, hq⟩ := hd a
  obtain ⟨p, hp⟩ := hd b
  unfold Comm at this ⊢
  simp only
  rw [hq, hp] at this ⊢
  rw [Nat.mul_div_cancel_left _ (Nat.pos_of_ne_zero hg0), Nat.mul_div_cancel_left _ (Nat.pos_of_ne_zero hg0)]
  have hgp := Nat.pos_of_ne_zero hg0
  constructor
  · apply Nat.dvd_of_mul_dvd_mul_left hgp
    convert this.1 using 1; ring
  · apply Nat.dvd_of_mul_dvd_mul_left hgp
    convert this.2 using 1; ring

theorem ceildiv_ge (n d : Nat) (hd : 0 < d) : n ≤ d * ceildiv n d := by
  unfold ceildiv
  have h1 := Nat.div_add_mod (n + d - 1) d
  have h2 := Nat.mod_lt (n + d - 1) hd
  generalize d * ((n + d - 1) / d) = x at *
  omega

theorem scaleStart_even (Smin Sb : Fin 3 → Nat) : 2 ∣ scaleStart Smin Sb := by
  unfold scaleStart
  simp only [List.foldl_cons, List.foldl_nil]
  split_ifs <;> simp

theorem scaleStart_ge (Smin Sb : Fin 3 → Nat) (k : Fin 3) (hk : Sb k ≠ 0) :
    2 * ceildiv (Smin k) (2 * Sb k) ≤ scaleStart Smin Sb := by
  unfold scaleStart
  simp only [List.foldl_cons, List.foldl_nil]
  have h3 : k = 0 ∨ k = 1 ∨ k = 2 := by clear hk; revert k; decide
  generalize h0 : 2 * ceildiv (Smin 0) (2 * Sb 0) = x0
  generalize h1 : 2 * ceildiv (Smin 1) (2 * Sb 1) = x1
  generalize h2 : 2 * ceildiv (Smin 2) (2 * Sb 2) = x2
  rcases h3 with rfl | rfl | rfl
  · rw [h0]; simp only [hk, ne_eq, not_false_eq_true, if_true]; split_ifs <;> omega
  · rw [h1]; simp only [hk, ne_eq, not_false_eq_true, if_true]; split_ifs <;> omega
  · rw [h2]; simp only [hk, ne_eq, not_false_eq_true, if_true]; split_ifs <;> omega

/-- Invariant of the loop over basis entries. -/
structure BInv (Smin : Fin 3 → Nat) (st : SbState) : Prop where
  done_iff : ∀ i, st.done i = true ↔ st.Sb i ≠ 0
  closed : ∀ a b, st.done a = true → Linked r a b → st.done b = true
  comm : ∀ a b, a ≠ b → st.done a = true → st.done b = true → Comm r st.Sb a b
  valid : ∀ i, st.done i = true → Smin i ≤ st.Sb i ∧ 2 ∣ st.Sb i ∧ Smooth7 (st.Sb i : Int)

open Filter in
theorem block_eventually (Smin : Fin 3 → Nat) (hS : ∀ k, 1 ≤ Smin k) (st : SbState) (hinv : BInv r Smin st) (j : Fin 3) :
    ∃ st', BInv r Smin st' ∧ st'.done j = true ∧ (∀ i, st.done i = true → st'.done i = true) ∧
      ∀ᶠ f in atTop, block f r Smin st j = .ok st' := by
  by_cases hd : st.done j = true
  · exact ⟨st, hinv, hd, fun _ h => h, by simp [block, hd]⟩
  have hdf : st.done j = false := by simpa using hd
  have hclosed : ∀ a b, st.done a = true → Linked r a b → st.done b = true := hinv.closed
  have hspec := processSb_spec r (fun i => st.done i = true) hclosed
  have hbnd : undone { Sb := fun i => if i = j then 1 else 0, done := st.done } ≤ 3 := by
    unfold undone
    exact (Finset.card_filter_le _ _).trans (by simp)
  have hpre : PInv r (fun i => st.done i = true)
      { Sb := fun i => if i = j then 1 else 0, done := fun i => if i = j then true else st.done i } := by
    refine ⟨?_, ?_, ?_⟩
    · intro i; by_cases h : i = j <;> simp [h]
    · intro i hi
      have : i ≠ j := fun h => by subst h; exact hd hi
      simp [this]
    · rintro - a b hab ha hb
      have ha' : a = j := by by_contra h; simp [h] at ha
      have hb' : b = j := by by_contra h; simp [h] at hb
      exact absurd (ha'.trans hb'.symm) hab
  -- the call gives the same result for every fuel ≥ 3
  obtain ⟨s3, hs3, p1, p2, p3⟩ := hspec 3 3 (le_refl _) { Sb := fun i => if i = j then 1 else 0, done := st.done } j
    hbnd hdf hpre (by simp)
  have hmono : ∀ n m (s : SbState) (j : Fin 3) s', n ≤ m → processSb r n s j = .ok s' → processSb r m s j = .ok s' := by
    intro n
    induction n with
    | zero => intro m s j s' _ h; simp [processSb] at h
    | succ n ih =>
      intro m s j s' hnm h
      obtain ⟨m, rfl⟩ : ∃ k, m = k + 1 := ⟨m - 1, by omega⟩
      have hv : ∀ (s : SbState) k s', visit (processSb r n) r j s k = .ok s' → visit (processSb r m) r j s k = .ok s' := by
        intro s k s' hv
        unfold visit at hv ⊢
        split
        · rename_i h1; rw [if_pos h1] at hv
          split
          · rename_i h2; rw [if_pos h2] at hv; exact hv
          · rename_i h2; rw [if_neg h2] at hv; exact ih _ _ _ _ (by omega) hv
        · rename_i h1; rw [if_neg h1] at hv; exact hv
      unfold processSb at h ⊢
      simp only at h ⊢
      cases h1 : visit (processSb r n) r j { s with done := fun i => if i = j then true else s.done i } 0 with
      | error e => rw [h1] at h; exact absurd h (by simp [Res.bind_error])
      | ok s1 =>
        rw [h1, Res.bind_ok] at h
        rw [hv _ _ _ h1, Res.bind_ok]
        cases h2 : visit (processSb r n) r j s1 1 with
        | error e => rw [h2] at h; exact absurd h (by simp [Res.bind_error])
        | ok s2 =>
          rw [h2, Res.bind_ok] at h
          rw [hv _ _ _ h2, Res.bind_ok]
          exact hv _ _ _ h
  have hcomm : ∀ a b, a ≠ b → s3.Sb a ≠ 0 → s3.Sb b ≠ 0 → Comm r s3.Sb a b := by
    intro a b hab ha hb
    by_cases hl : Linked r a b
    · have hda : s3.done a = true := (p1.done_iff a).2 (Or.inl ha)
      have hna : st.done a = false := by
        rw [← Bool.not_eq_true]; exact fun h => ha (p1.disj a h)
      exact ((p3 a hda hna).2 b hab.symm hl).2
    · exact comm_of_not_linked r _ _ _ hl
  have hj3 : s3.Sb j ≠ 0 := p2.ne j (by simp)
  obtain ⟨d1, g1, g2, g3⟩ := gcdReduce_ok r s3.Sb j hj3 hcomm
  obtain ⟨d2, m1, m2, m3, m4⟩ := makeSuitable_eventually r d1 g3
  have hd2j : d2 j ≠ 0 := (m1 j).2 ((g2 j).2 hj3)
  have hpos : 0 < scaleStart Smin d2 := by
    have h1 := scaleStart_ge Smin d2 j hd2j
    have h2 := ceildiv_ge (Smin j) (2 * d2 j) (by omega)
    have h3 := hS j
    rcases Nat.eq_zero_or_pos (ceildiv (Smin j) (2 * d2 j)) with h | h
    · rw [h] at h2; omega
    · omega
  obtain ⟨t, t1, t2, t3, t4⟩ := scaleLoop_eventually (scaleStart Smin d2) hpos (scaleStart_even Smin d2)
  have ht0 : t ≠ 0 := by omega
  have hsupp : ∀ i, d2 i ≠ 0 ↔ s3.Sb i ≠ 0 := fun i => (m1 i).trans (g2 i)
  have hnew : ∀ i, d2 i ≠ 0 → st.Sb i = 0 := by
    intro i hi
    by_contra hc
    exact (hsupp i).1 hi (p1.disj i ((hinv.done_iff i).2 hc))
  have hold : ∀ i, st.done i = true → d2 i = 0 := by
    intro i hi
    by_contra hc
    exact (hinv.done_iff i).1 hi (hnew i hc)
  have hdone : ∀ i, s3.done i = true ↔ (d2 i ≠ 0 ∨ st.done i = true) := by
    intro i; rw [p1.done_iff i, hsupp i]
  refine ⟨{ Sb := fun i => st.Sb i + d2 i * t, done := s3.done }, ⟨?_, ?_, ?_, ?_⟩, ?_, ?_, ?_⟩
  · intro i
    simp only
    rw [hdone i, hinv.done_iff i]
    constructor
    · rintro (h | h)
      · have := Nat.mul_ne_zero h ht0; omega
      · omega
    · intro h
      by_cases h1 : d2 i = 0
      · right; intro h2; apply h; rw [h1, h2]; simp
      · left; exact h1
  · intro a b ha hl
    simp only at ha ⊢
    rw [hdone] at ha
    rcases ha with ha | ha
    · have ha3 := (hsupp a).1 ha
      have hda : s3.done a = true := (p1.done_iff a).2 (Or.inl ha3)
      have hna : st.done a = false := by
        rw [← Bool.not_eq_true]; exact fun h => ha3 (p1.disj a h)
      by_cases hab : b = a
      · subst hab; exact hda
      · exact (p1.done_iff b).2 (Or.inl ((p3 a hda hna).2 b hab hl).1)
    · exact (hdone b).2 (Or.inr (hinv.closed a b ha hl))
  · intro a b hab ha hb
    simp only at ha hb ⊢
    rw [hdone] at ha hb
    by_cases hl : Linked r a b
    swap
    · exact comm_of_not_linked r _ _ _ hl
    rcases ha with ha | ha <;> rcases hb with hb | hb
    · have := m2 a b hab ha hb
      unfold Comm at this ⊢
      simp only [hnew a ha, hnew b hb, zero_add]
      exact ⟨by rw [← mul_assoc]; exact Nat.mul_dvd_mul_right this.1 _, by rw [← mul_assoc]; exact Nat.mul_dvd_mul_right this.2 _⟩
    · exact absurd (hold a (hinv.closed b a hb hl.symm)) ha
    · exact absurd (hold b (hinv.closed a b ha hl)) hb
    · have := hinv.comm a b hab ha hb
      unfold Comm at this ⊢
      simpa only [hold a ha, hold b hb, zero_mul, add_zero] using this
  · intro i hi
    simp only at hi ⊢
    rw [hdone] at hi
    rcases hi with hi | hi
    · rw [hnew i hi, zero_add]
      refine ⟨?_, Dvd.dvd.mul_left t2 _, ?_⟩
      · have h1 := scaleStart_ge Smin d2 i hi
        have h2 := ceildiv_ge (Smin i) (2 * d2 i) (by omega)
        calc Smin i ≤ 2 * d2 i * ceildiv (Smin i) (2 * d2 i) := h2
          _ = d2 i * (2 * ceildiv (Smin i) (2 * d2 i)) := by ring
          _ ≤ d2 i * t := Nat.mul_le_mul_left _ (by omega)
      · rw [Nat.cast_mul]; exact smooth_mul (m3 i hi) t3
    · rw [hold i hi, zero_mul, add_zero]; exact hinv.valid i hi
  · exact (hdone j).2 (Or.inl hd2j)
  · intro i hi; exact (hdone i).2 (Or.inr hi)
  · filter_upwards [m4, t4, eventually_ge_atTop 3] with f f1 f2 f3
    unfold block
    rw [if_neg hd, hmono 3 f _ _ _ f3 hs3, Res.bind_ok, g1, Res.bind_ok, f1, Res.bind_ok, f2, Res.bind_ok]
    rfl

end Jdftx.Grid
