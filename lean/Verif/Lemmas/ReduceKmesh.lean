import Verif.Model.ReduceKmesh
import Verif.Spec.ReduceKmesh
import Verif.Lemmas.TaskDivision
import Verif.Lemmas.Mat3
import Verif.Props.KmapPack
import Verif.Props.PeriodicLookup
import Mathlib.Algebra.BigOperators.Intervals
import Mathlib.Tactic.Linarith
import Mathlib.Tactic.LinearCombination
import Mathlib.Tactic.Ring

/-!
# Lemmas for C32
-/
namespace Jdftx.RK
open Jdftx.M3 Jdftx.Kmap Jdftx.Kpts
noncomputable section
open Classical

abbrev Triple := Nat × Int × Nat

/-- Packed entry of a triple. -/
def pk (t : Triple) : BitVec 64 := kmapPack (BitVec.ofNat 64 t.1) t.2.1 (BitVec.ofNat 32 t.2.2)

/-- The `kmap` array holds minima over the triples satisfying `T`. -/
def MinOver (F : Triple → Option Nat) (n : Nat) (T : Triple → Prop) (kmap : List (BitVec 64)) : Prop :=
  kmap.length = n ∧ ∀ d v, kmap[d]? = some v →
    (v = BitVec.allOnes 64 ∨ ∃ t, T t ∧ F t = some d ∧ v = pk t) ∧ ∀ t, T t → F t = some d → v.toNat ≤ (pk t).toNat

/-- The `isSymKmesh` array records which symmetries had all images found. -/
def SymOver (F : Triple → Option Nat) (m : Nat) (T : Triple → Prop) (isSym : List Bool) : Prop :=
  isSym.length = m ∧ ∀ i b, isSym[i]? = some b → (b = true ↔ ∀ t, T t → t.2.1 > 0 → t.2.2 = i → F t ≠ none)

theorem umin_le (a b : BitVec 64) : (umin a b).toNat ≤ a.toNat ∧ (umin a b).toNat ≤ b.toNat ∧ (umin a b = a ∨ umin a b = b) := by
  unfold umin
  split <;> simp <;> omega

theorem allOnes_le (a : BitVec 64) : a.toNat ≤ (BitVec.allOnes 64).toNat := by
  have := a.isLt
  simp only [BitVec.toNat_allOnes]
  omega

variable {find : V3 ℝ → Res (Option Nat)} {qnums : List (QN ℝ)} {sym : List (Mat Int)} {F : Triple → Option Nat}

/-- What is assumed of the look-up: on all images it succeeds with answers in range. -/
def FindSpec (find : V3 ℝ → Res (Option Nat)) (qnums : List (QN ℝ)) (sym : List (Mat Int)) (F : Triple → Option Nat) : Prop :=
  ∀ t : Triple, ∀ q rot, qnums[t.1]? = some q → sym[t.2.2]? = some rot →
    find (image t.2.1 q.k rot) = .ok (F t) ∧ ∀ d, F t = some d → d < qnums.length

theorem visit_spec (hF : FindSpec find qnums sym F) (T : Triple → Prop) (m : Maps)
    (hm : MinOver F qnums.length T m.kmap) (hs : SymOver F sym.length T m.isSym) (t : Triple)
    (h1 : t.1 < qnums.length) (h2 : t.2.2 < sym.length) :
    ∃ m', visit find qnums sym m t = .ok m' ∧ MinOver F qnums.length (fun u => T u ∨ u = t) m'.kmap ∧
      SymOver F sym.length (fun u => T u ∨ u = t) m'.isSym := by
  have e1 : qnums[t.1]? = some qnums[t.1] := List.getElem?_eq_getElem h1
  have e2 : sym[t.2.2]? = some sym[t.2.2] := List.getElem?_eq_getElem h2
  obtain ⟨hf, hlt⟩ := hF t _ _ e1 e2
  unfold visit
  rw [e1, e2]
  simp only [hf]
  cases hFt : F t with
  | none =>
    simp only
    have hmin : MinOver F qnums.length (fun u => T u ∨ u = t) m.kmap := by
      refine ⟨hm.1, fun d v hv => ?_⟩
      obtain ⟨a, b⟩ := hm.2 d v hv
      refine ⟨?_, ?_⟩
      · rcases a with a | ⟨u, hu, a⟩
        · exact .inl a
        · exact .inr ⟨u, .inl hu, a⟩
      · rintro u (hu | rfl) hd
        · exact b u hu hd
        · rw [hFt] at hd; cases hd
    by_cases hp : t.2.1 > 0
    · rw [if_pos hp]
      refine ⟨_, rfl, hmin, by simpa using hs.1, fun i b hi => ?_⟩
      simp only [List.getElem?_set] at hi
      by_cases hti : t.2.2 = i
      · rw [if_pos hti] at hi
        split at hi
        · simp only [Option.some.injEq] at hi
          subst hi
          constructor
          · intro h; cases h
          · intro h
            exact absurd hFt (h t (.inr rfl) hp hti)
        · cases hi
      · rw [if_neg hti] at hi
        rw [hs.2 i b hi]
        constructor
        · rintro h u (hu | rfl) h1 h2
          · exact h u hu h1 h2
          · exact absurd h2 hti
        · intro h u hu; exact h u (.inl hu)
    · rw [if_neg hp]
      refine ⟨_, rfl, hmin, hs.1, fun i b hi => ?_⟩
      rw [hs.2 i b hi]
      constructor
      · rintro h u (hu | rfl) h1 h2
        · exact h u hu h1 h2
        · exact absurd h1 hp
      · intro h u hu; exact h u (.inl hu)
  | some d =>
    simp only
    have hd := hlt d hFt
    have e3 : m.kmap[d]? = some (m.kmap[d]'(by rw [hm.1]; exact hd)) := List.getElem?_eq_getElem _
    rw [e3]
    refine ⟨_, rfl, ⟨by simpa using hm.1, fun d' v hv => ?_⟩, hs.1, fun i b hi => ?_⟩
    · simp only [List.getElem?_set] at hv
      by_cases hdd : d = d'
      · subst hdd
        rw [if_pos rfl, if_pos (by rw [hm.1]; exact hd)] at hv
        simp only [Option.some.injEq] at hv
        obtain ⟨a, b⟩ := hm.2 d _ e3
        obtain ⟨u1, u2, u3⟩ := umin_le (m.kmap[d]'(by rw [hm.1]; exact hd)) (kmapPack (BitVec.ofNat 64 t.1) t.2.1 (BitVec.ofNat 32 t.2.2))
        rw [hv] at u1 u2 u3
        refine ⟨?_, ?_⟩
        · rcases u3 with u3 | u3
          · rw [u3]
            rcases a with a | ⟨u, hu, a⟩
            · exact .inl a
            · exact .inr ⟨u, .inl hu, a⟩
          · exact .inr ⟨t, .inr rfl, hFt, u3⟩
        · rintro u (hu | rfl) hud
          · exact u1.trans (b u hu hud)
          · exact u2
      · rw [if_neg hdd] at hv
        obtain ⟨a, b⟩ := hm.2 d' v hv
        refine ⟨?_, ?_⟩
        · rcases a with a | ⟨u, hu, a⟩
          · exact .inl a
          · exact .inr ⟨u, .inl hu, a⟩
        · rintro u (hu | rfl) hud
          · exact b u hu hud
          · rw [hFt] at hud
            injection hud with hud
            exact absurd hud hdd
    · rw [hs.2 i b hi]
      constructor
      · rintro h u (hu | rfl) h1 h2
        · exact h u hu h1 h2
        · rw [hFt]; simp
      · intro h u hu; exact h u (.inl hu)

theorem visitAll_spec (hF : FindSpec find qnums sym F) (ts : List Triple) (hts : ∀ t ∈ ts, t.1 < qnums.length ∧ t.2.2 < sym.length) :
    ∀ (T : Triple → Prop) (m : Maps), MinOver F qnums.length T m.kmap → SymOver F sym.length T m.isSym →
    ∃ m', visitAll find qnums sym ts m = .ok m' ∧ MinOver F qnums.length (fun u => T u ∨ u ∈ ts) m'.kmap ∧
      SymOver F sym.length (fun u => T u ∨ u ∈ ts) m'.isSym := by
  induction ts with
  | nil => intro T m hm hs; exact ⟨m, rfl, by simpa using hm, by simpa using hs⟩
  | cons t ts ih =>
    intro T m hm hs
    obtain ⟨m1, e1, hm1, hs1⟩ := visit_spec hF T m hm hs t (hts t (by simp)).1 (hts t (by simp)).2
    obtain ⟨m2, e2, hm2, hs2⟩ := ih (fun u hu => hts u (by simp [hu])) _ m1 hm1 hs1
    refine ⟨m2, by simp only [visitAll, e1, e2], ?_, ?_⟩
    · simpa [or_assoc] using hm2
    · simpa [or_assoc] using hs2

theorem mapsInit_spec (n m : Nat) : MinOver F n (fun _ => False) (mapsInit n m).kmap ∧ SymOver F m (fun _ => False) (mapsInit n m).isSym := by
  refine ⟨⟨by simp [mapsInit], fun d v hv => ?_⟩, ⟨by simp [mapsInit], fun i b hb => ?_⟩⟩
  · simp only [mapsInit, List.getElem?_replicate] at hv
    split at hv
    · simp only [Option.some.injEq] at hv
      exact ⟨.inl hv.symm, fun _ h => h.elim⟩
    · cases hv
  · simp only [mapsInit, List.getElem?_replicate] at hb
    split at hb
    · simp only [Option.some.injEq] at hb
      simp [← hb]
    · cases hb

theorem mem_visits (start stop : Nat) (inv : List Int) (nSym : Nat) (t : Triple) :
    t ∈ visits start stop inv nSym ↔ (start ≤ t.1 ∧ t.1 < stop) ∧ t.2.1 ∈ inv ∧ t.2.2 < nSym := by
  obtain ⟨a, b, c⟩ := t
  unfold visits
  simp only [List.mem_flatMap, List.mem_map, List.mem_range, List.mem_range'_1, Prod.mk.injEq]
  constructor
  · rintro ⟨x, hx, y, hy, z, hz, rfl, rfl, rfl⟩
    exact ⟨by omega, hy, hz⟩
  · rintro ⟨h1, h2, h3⟩
    exact ⟨a, by omega, b, h2, c, h3, rfl, rfl, rfl⟩

theorem combine_spec {n m : Nat} {T1 T2 : Triple → Prop} {a b : Maps} (ha : MinOver F n T1 a.kmap) (hb : MinOver F n T2 b.kmap)
    (sa : SymOver F m T1 a.isSym) (sb : SymOver F m T2 b.isSym) :
    MinOver F n (fun u => T1 u ∨ T2 u) (combine a b).kmap ∧ SymOver F m (fun u => T1 u ∨ T2 u) (combine a b).isSym := by
  refine ⟨⟨by simp [combine, ha.1, hb.1], fun d v hv => ?_⟩, ⟨by simp [combine, sa.1, sb.1], fun i x hx => ?_⟩⟩
  · simp only [combine, List.getElem?_zipWith] at hv
    cases e1 : a.kmap[d]? with
    | none => rw [e1] at hv; simp at hv
    | some v1 =>
      cases e2 : b.kmap[d]? with
      | none => rw [e1, e2] at hv; simp at hv
      | some v2 =>
        rw [e1, e2] at hv
        simp only [Option.some.injEq] at hv
        obtain ⟨a1, a2⟩ := ha.2 d v1 e1
        obtain ⟨b1, b2⟩ := hb.2 d v2 e2
        obtain ⟨u1, u2, u3⟩ := umin_le v1 v2
        rw [hv] at u1 u2 u3
        refine ⟨?_, ?_⟩
        · rcases u3 with u3 | u3
          · rw [u3]
            rcases a1 with h | ⟨u, hu, h⟩
            · exact .inl h
            · exact .inr ⟨u, .inl hu, h⟩
          · rw [u3]
            rcases b1 with h | ⟨u, hu, h⟩
            · exact .inl h
            · exact .inr ⟨u, .inr hu, h⟩
        · rintro u (hu | hu) hd
          · exact u1.trans (a2 u hu hd)
          · exact u2.trans (b2 u hu hd)
  · simp only [combine, List.getElem?_zipWith] at hx
    cases e1 : a.isSym[i]? with
    | none => rw [e1] at hx; simp at hx
    | some v1 =>
      cases e2 : b.isSym[i]? with
      | none => rw [e1, e2] at hx; simp at hx
      | some v2 =>
        rw [e1, e2] at hx
        simp only [Option.some.injEq] at hx
        rw [← hx, Bool.and_eq_true, sa.2 i v1 e1, sb.2 i v2 e2]
        constructor
        · rintro ⟨h1, h2⟩ u (hu | hu)
          · exact h1 u hu
          · exact h2 u hu
        · intro h
          exact ⟨fun u hu => h u (.inl hu), fun u hu => h u (.inr hu)⟩

/-- All triples the processes visit together. -/
def AllT (qnums : List (QN ℝ)) (sym : List (Mat Int)) (inv : List Int) (t : Triple) : Prop :=
  t.1 < qnums.length ∧ t.2.1 ∈ inv ∧ t.2.2 < sym.length

theorem reducedMaps_spec (hF : FindSpec find qnums sym F) (inv : List Int) (P : Nat) (hP : 0 < P) :
    ∃ m, reducedMaps find qnums sym inv P P = .ok m ∧ MinOver F qnums.length (AllT qnums sym inv) m.kmap ∧
      SymOver F sym.length (AllT qnums sym inv) m.isSym := by
  have key : ∀ i, i ≤ P → ∃ m, reducedMaps find qnums sym inv P i = .ok m ∧
      MinOver F qnums.length (fun t => t.1 < (i * qnums.length) / P ∧ t.2.1 ∈ inv ∧ t.2.2 < sym.length) m.kmap ∧
      SymOver F sym.length (fun t => t.1 < (i * qnums.length) / P ∧ t.2.1 ∈ inv ∧ t.2.2 < sym.length) m.isSym := by
    intro i
    induction i with
    | zero =>
      intro _
      refine ⟨_, rfl, ?_⟩
      have : (fun t : Triple => t.1 < (0 * qnums.length) / P ∧ t.2.1 ∈ inv ∧ t.2.2 < sym.length) = fun _ => False := by
        funext t; simp
      rw [this]
      exact mapsInit_spec _ _
    | succ i ih =>
      intro hi
      obtain ⟨a, ea, ma, sa⟩ := ih (by omega)
      have hmono : (i * qnums.length) / P ≤ ((i + 1) * qnums.length) / P := Nat.div_le_div_right (Nat.mul_le_mul_right _ (by omega))
      have htop : ((i + 1) * qnums.length) / P ≤ qnums.length := by
        refine (Nat.div_le_div_right (Nat.mul_le_mul_right _ hi)).trans ?_
        rw [Nat.mul_div_cancel_left _ hP]
      obtain ⟨b, eb, mb, sb⟩ := visitAll_spec hF (visits ((i * qnums.length) / P) (((i + 1) * qnums.length) / P) inv sym.length)
        (fun t ht => by rw [mem_visits] at ht; exact ⟨by omega, ht.2.2⟩) (fun _ => False) _
        (mapsInit_spec (F := F) qnums.length sym.length).1 (mapsInit_spec (F := F) qnums.length sym.length).2
      have eb' : processMaps find qnums sym inv P i = .ok b := by
        unfold processMaps
        rw [TaskDiv.init_eq _ _ _ (by omega)]
        exact eb
      obtain ⟨mc, sc⟩ := combine_spec ma mb sa sb
      refine ⟨combine a b, by simp only [reducedMaps, ea, eb'], ?_⟩
      have : (fun u : Triple => (u.1 < (i * qnums.length) / P ∧ u.2.1 ∈ inv ∧ u.2.2 < sym.length) ∨
          (False ∨ u ∈ visits ((i * qnums.length) / P) (((i + 1) * qnums.length) / P) inv sym.length))
          = fun t => t.1 < ((i + 1) * qnums.length) / P ∧ t.2.1 ∈ inv ∧ t.2.2 < sym.length := by
        funext u
        rw [mem_visits, false_or]
        apply propext
        constructor
        · rintro (⟨h1, h2⟩ | ⟨⟨_, h1⟩, h2⟩)
          · exact ⟨by omega, h2⟩
          · exact ⟨h1, h2⟩
        · rintro ⟨h1, h2⟩
          by_cases h : u.1 < (i * qnums.length) / P
          · exact .inl ⟨h, h2⟩
          · exact .inr ⟨⟨by omega, h1⟩, h2⟩
      rw [this] at mc sc
      exact ⟨mc, sc⟩
  have := key P (le_refl _)
  simp only [Nat.mul_div_cancel_left _ hP] at this
  exact this

theorem MinOver_unique {n : Nat} {T : Triple → Prop} {a b : List (BitVec 64)} (ha : MinOver F n T a) (hb : MinOver F n T b) : a = b := by
  apply List.ext_getElem? 
  intro d
  by_cases hd : d < n
  · have e1 : a[d]? = some (a[d]'(by rw [ha.1]; exact hd)) := List.getElem?_eq_getElem _
    have e2 : b[d]? = some (b[d]'(by rw [hb.1]; exact hd)) := List.getElem?_eq_getElem _
    rw [e1, e2]
    obtain ⟨a1, a2⟩ := ha.2 d _ e1
    obtain ⟨b1, b2⟩ := hb.2 d _ e2
    congr 1
    apply BitVec.eq_of_toNat_eq
    apply le_antisymm
    · rcases b1 with h | ⟨t, ht, hf, h⟩
      · rw [h]; exact allOnes_le _
      · rw [h]; exact a2 t ht hf
    · rcases a1 with h | ⟨t, ht, hf, h⟩
      · rw [h]; exact allOnes_le _
      · rw [h]; exact b2 t ht hf
  · rw [List.getElem?_eq_none (by rw [ha.1]; omega), List.getElem?_eq_none (by rw [hb.1]; omega)]

theorem SymOver_unique {n : Nat} {T : Triple → Prop} {a b : List Bool} (ha : SymOver F n T a) (hb : SymOver F n T b) : a = b := by
  apply List.ext_getElem? 
  intro d
  by_cases hd : d < n
  · have e1 : a[d]? = some (a[d]'(by rw [ha.1]; exact hd)) := List.getElem?_eq_getElem _
    have e2 : b[d]? = some (b[d]'(by rw [hb.1]; exact hd)) := List.getElem?_eq_getElem _
    rw [e1, e2]
    congr 1
    rw [Bool.eq_iff_iff, ha.2 d _ e1, hb.2 d _ e2]
  · rw [List.getElem?_eq_none (by rw [ha.1]; omega), List.getElem?_eq_none (by rw [hb.1]; omega)]

/-! ## Second phase -/

theorem mem_insertKey (k x : Nat) (l : List Nat) : x ∈ insertKey k l ↔ x = k ∨ x ∈ l := by
  induction l with
  | nil => simp [insertKey]
  | cons y ys ih =>
    unfold insertKey
    split
    · simp
    · split
      · next h => subst h; simp
      · simp only [List.mem_cons, ih]
        constructor
        · rintro (h | h | h) <;> simp [h]
        · rintro (h | h | h) <;> simp [h]

theorem sorted_insertKey (k : Nat) (l : List Nat) (h : l.Pairwise (· < ·)) : (insertKey k l).Pairwise (· < ·) := by
  induction l with
  | nil => simp [insertKey]
  | cons y ys ih =>
    rw [List.pairwise_cons] at h
    unfold insertKey
    split
    · next hk =>
      refine List.pairwise_cons.2 ⟨?_, List.pairwise_cons.2 h⟩
      intro x hx
      rcases List.mem_cons.1 hx with rfl | hx
      · exact hk
      · exact hk.trans (h.1 x hx)
    · split
      · exact List.pairwise_cons.2 h
      · next h1 h2 =>
        refine List.pairwise_cons.2 ⟨?_, ih h.2⟩
        intro x hx
        rcases (mem_insertKey k x ys).1 hx with rfl | hx
        · omega
        · exact h.1 x hx

theorem sourceKeys_spec (kmap : List (BitVec 64)) :
    (sourceKeys kmap).Pairwise (· < ·) ∧ ∀ x, x ∈ sourceKeys kmap ↔ ∃ e ∈ kmap, x = (kmapUnpack e).1.toNat := by
  have key : ∀ (l : List (BitVec 64)) (acc : List Nat), acc.Pairwise (· < ·) →
      (l.foldl (fun keys e => insertKey (kmapUnpack e).1.toNat keys) acc).Pairwise (· < ·) ∧
      ∀ x, x ∈ l.foldl (fun keys e => insertKey (kmapUnpack e).1.toNat keys) acc ↔ (x ∈ acc ∨ ∃ e ∈ l, x = (kmapUnpack e).1.toNat) := by
    intro l
    induction l with
    | nil => intro acc h; exact ⟨h, by simp⟩
    | cons e l ih =>
      intro acc h
      obtain ⟨h1, h2⟩ := ih _ (sorted_insertKey (kmapUnpack e).1.toNat acc h)
      refine ⟨h1, fun x => ?_⟩
      rw [List.foldl_cons, h2, mem_insertKey]
      simp only [List.mem_cons]
      constructor
      · rintro ((h | h) | ⟨f, hf, h⟩)
        · exact .inr ⟨e, .inl rfl, h⟩
        · exact .inl h
        · exact .inr ⟨f, .inr hf, h⟩
      · rintro (h | ⟨f, rfl | hf, h⟩)
        · exact .inl (.inr h)
        · exact .inl (.inl h)
        · exact .inr ⟨f, hf, h⟩
  obtain ⟨h1, h2⟩ := key kmap [] List.Pairwise.nil
  exact ⟨h1, fun x => by rw [sourceKeys, h2]; simp⟩

theorem pickSources_ok (qnums : List (QN ℝ)) : ∀ keys : List Nat, (∀ s ∈ keys, s < qnums.length) →
    ∃ l : List (QN ℝ), pickSources qnums keys = .ok l ∧ l.length = keys.length ∧ ∀ r s : Nat, keys[r]? = some s → l[r]? = qnums[s]? := by
  intro keys
  induction keys with
  | nil => intro _; exact ⟨[], rfl, rfl, by simp⟩
  | cons s ss ih =>
    intro h
    obtain ⟨l, e, hl, hr⟩ := ih (fun x hx => h x (by simp [hx]))
    have e1 : qnums[s]? = some (qnums[s]'(h s (by simp))) := List.getElem?_eq_getElem _
    refine ⟨qnums[s]'(h s (by simp)) :: l, by simp only [pickSources, e1, e], by simp [hl], ?_⟩
    intro r t ht
    cases r with
    | zero =>
      simp only [List.getElem?_cons_zero, Option.some.injEq] at ht ⊢
      rw [← ht, e1]
    | succ r =>
      simp only [List.getElem?_cons_succ] at ht ⊢
      exact hr r t ht

theorem pickSources_ub (qnums : List (QN ℝ)) : ∀ keys : List Nat, (∃ s ∈ keys, qnums.length ≤ s) → pickSources qnums keys = .error .ub := by
  intro keys
  induction keys with
  | nil => rintro ⟨s, h, _⟩; cases h
  | cons s ss ih =>
    intro hex
    unfold pickSources
    by_cases hs : s < qnums.length
    · have e1 : qnums[s]? = some (qnums[s]'hs) := List.getElem?_eq_getElem _
      rw [e1, ih ?_]
      obtain ⟨x, hx, hxl⟩ := hex
      rcases List.mem_cons.1 hx with rfl | hx
      · omega
      · exact ⟨x, hx, hxl⟩
    · rw [List.getElem?_eq_none (by omega)]

/-- Source index recorded for destination `d`. -/
def srcOf (kmap : List (BitVec 64)) (d : Nat) : Nat := (kmapUnpack (kmap.getD d 0)).1.toNat

/-- Weight of point `d`. -/
def wOf (qnums : List (QN ℝ)) (d : Nat) : ℝ := (qnums.getD d ⟨fun _ => 0, 0⟩).weight

theorem accumulate_spec (keys : List Nat) (qnums : List (QN ℝ)) (kmap : List (BitVec 64)) (hlen : kmap.length = qnums.length)
    (hkeys : ∀ d, d < qnums.length → srcOf kmap d ∈ keys) :
    ∀ (m j : Nat), j + m = qnums.length → ∀ qRed : List (QN ℝ), qRed.length = keys.length →
    ∃ out : List (QN ℝ), accumulate keys j (qnums.drop j) (kmap.drop j) qRed
        = .ok (out, (kmap.drop j).map fun e => kmapPack (BitVec.ofNat 64 (keys.idxOf (kmapUnpack e).1.toNat)) (kmapUnpack e).2.1 (kmapUnpack e).2.2) ∧
      out.length = qRed.length ∧
      ∀ (r : Nat) (q : QN ℝ), qRed[r]? = some q → out[r]? = some ⟨q.k, q.weight +
        ∑ d ∈ Finset.Ico j qnums.length, if keys.idxOf (srcOf kmap d) = r ∧ d ≠ srcOf kmap d then wOf qnums d else 0⟩ := by
  intro m
  induction m with
  | zero =>
    intro j hj qRed _
    have hj' : j = qnums.length := by omega
    subst hj'
    refine ⟨qRed, ?_, rfl, ?_⟩
    · rw [List.drop_length, ← hlen, List.drop_length]; rfl
    · intro r q hq; simp [hq]
  | succ m ih =>
    intro j hj qRed hql
    have hjl : j < qnums.length := by omega
    have hjk : j < kmap.length := by omega
    rw [List.drop_eq_getElem_cons hjl, List.drop_eq_getElem_cons hjk]
    have hsrc : srcOf kmap j = (kmapUnpack kmap[j]).1.toNat := by
      unfold srcOf; rw [List.getD_eq_getElem?_getD, List.getElem?_eq_getElem hjk]; rfl
    have hw : wOf qnums j = qnums[j].weight := by
      unfold wOf; rw [List.getD_eq_getElem?_getD, List.getElem?_eq_getElem hjl]; rfl
    have hmem := hkeys j hjl
    have hidx : keys.idxOf (srcOf kmap j) < qRed.length := by rw [hql]; exact List.idxOf_lt_length_iff.2 hmem
    obtain ⟨q0, hq0⟩ : ∃ q0, qRed[keys.idxOf (srcOf kmap j)]? = some q0 := ⟨_, List.getElem?_eq_getElem hidx⟩
    generalize hqRed' : (if j ≠ srcOf kmap j then qRed.set (keys.idxOf (srcOf kmap j)) { q0 with weight := q0.weight + qnums[j].weight } else qRed) = qRed'
    have hl' : qRed'.length = qRed.length := by rw [← hqRed']; split <;> simp
    obtain ⟨out, eo, ol, oq⟩ := ih (j + 1) (by omega) qRed' (by omega)
    refine ⟨out, ?_, by omega, ?_⟩
    · unfold accumulate
      simp only [← hsrc]
      rw [hq0]
      simp only [hqRed', eo]
      rw [List.map_cons, ← hsrc]
    · intro r q hq
      have hsum : ∑ d ∈ Finset.Ico j qnums.length, (if keys.idxOf (srcOf kmap d) = r ∧ d ≠ srcOf kmap d then wOf qnums d else 0)
          = (if keys.idxOf (srcOf kmap j) = r ∧ j ≠ srcOf kmap j then wOf qnums j else 0)
            + ∑ d ∈ Finset.Ico (j + 1) qnums.length, (if keys.idxOf (srcOf kmap d) = r ∧ d ≠ srcOf kmap d then wOf qnums d else 0) :=
        Finset.sum_eq_sum_Ico_succ_bot hjl _
      rw [hsum]
      by_cases hc : keys.idxOf (srcOf kmap j) = r ∧ j ≠ srcOf kmap j
      · rw [if_pos hc]
        have : qRed'[r]? = some ⟨q.k, q.weight + qnums[j].weight⟩ := by
          rw [← hqRed', if_pos hc.2, ← hc.1, List.getElem?_set_self hidx]
          rw [← hc.1, hq0] at hq
          injection hq with hq
          rw [hq]
        rw [oq r _ this, hw]
        simp only [add_assoc]
      · rw [if_neg hc, zero_add]
        have : qRed'[r]? = some q := by
          rw [← hqRed']
          by_cases hj2 : j ≠ srcOf kmap j
          · rw [if_pos hj2, List.getElem?_set_ne (fun h => hc ⟨h, hj2⟩)]; exact hq
          · rw [if_neg hj2]; exact hq
        rw [oq r _ this]

theorem sum_range_eq (qnums : List (QN ℝ)) (f : QN ℝ → ℝ) :
    (qnums.map f).sum = ∑ d ∈ Finset.range qnums.length, f (qnums.getD d ⟨fun _ => 0, 0⟩) := by
  induction qnums with
  | nil => simp
  | cons q qs ih =>
    rw [List.length_cons, Finset.sum_range_succ', List.map_cons, List.sum_cons, ih, add_comm]
    rfl

theorem sum_over_keys (keys : List Nat) (hk : keys.Nodup) (n : Nat) (src : Nat → Nat) (w : Nat → ℝ) (h : ∀ d < n, src d ∈ keys) :
    (keys.map fun s => ∑ d ∈ Finset.range n, if src d = s then w d else 0).sum = ∑ d ∈ Finset.range n, w d := by
  rw [← List.sum_toFinset _ hk, Finset.sum_comm]
  refine Finset.sum_congr rfl fun d hd => ?_
  rw [Finset.sum_ite_eq, if_pos (by simpa using h d (Finset.mem_range.1 hd))]

/-! ## Geometry -/

theorem EquivK.refl (a : V3 ℝ) : EquivK a a := fun c => ⟨0, by simp⟩
theorem EquivK.symm {a b : V3 ℝ} (h : EquivK a b) : EquivK b a := fun c => by
  obtain ⟨n, hn⟩ := h c; exact ⟨-n, by rw [hn]; push_cast; ring⟩
theorem EquivK.trans {a b d : V3 ℝ} (h : EquivK a b) (g : EquivK b d) : EquivK a d := fun c => by
  obtain ⟨n, hn⟩ := h c; obtain ⟨m, hm⟩ := g c; exact ⟨n + m, by rw [hn, hm]; push_cast; ring⟩

/-- Signed image. -/
def im (σ : ℝ) (rot : Mat Int) (a : V3 ℝ) : V3 ℝ := fun c => σ * mulVM a (castMat rot) c

theorem image_eq (σ : Int) (rot : Mat Int) (a : V3 ℝ) : image σ a rot = im σ rot a := by
  funext c; simp only [image, im, mulVM]; ring

theorem im_mul (σ τ : ℝ) (r s : Mat Int) (a : V3 ℝ) : im σ s (im τ r a) = im (σ * τ) (mulMM r s) a := by
  funext c; simp only [im, mulVM, mulMM, castMat]; push_cast; ring

theorem im_one (a : V3 ℝ) : im 1 (diag 1 1 1) a = a := by
  funext c
  simp only [im, mulVM, castMat, diag, vec]
  fin_cases c <;> simp

theorem im_equiv {σ : ℝ} (hσ : σ = 1 ∨ σ = -1) (rot : Mat Int) {a b : V3 ℝ} (h : EquivK a b) : EquivK (im σ rot a) (im σ rot b) := by
  intro c
  choose n hn using h
  rcases hσ with rfl | rfl
  · refine ⟨n 0 * rot 0 c + n 1 * rot 1 c + n 2 * rot 2 c, ?_⟩
    simp only [im, mulVM, castMat, hn]; push_cast; ring
  · refine ⟨-(n 0 * rot 0 c + n 1 * rot 1 c + n 2 * rot 2 c), ?_⟩
    simp only [im, mulVM, castMat, hn]; push_cast; ring

theorem Related_iff (u : Bool) (sym : List (Mat Int)) (a b : V3 ℝ) :
    Related u sym a b ↔ ∃ σ : ℝ, (σ = 1 ∨ (u = true ∧ σ = -1)) ∧ ∃ rot ∈ sym, EquivK b (im σ rot a) := Iff.rfl

theorem Related.refl {u : Bool} {sym : List (Mat Int)} (hg : IsGroup sym) (a : V3 ℝ) : Related u sym a a :=
  ⟨1, .inl rfl, _, hg.one, by rw [show (fun c => (1 : ℝ) * mulVM a (castMat (diag 1 1 1)) c) = a from im_one a]; exact EquivK.refl a⟩

theorem sign_of {u : Bool} {σ : ℝ} (h : σ = 1 ∨ (u = true ∧ σ = -1)) : σ = 1 ∨ σ = -1 := by tauto

theorem Related.symm {u : Bool} {sym : List (Mat Int)} (hg : IsGroup sym) {a b : V3 ℝ} (h : Related u sym a b) : Related u sym b a := by
  rw [Related_iff] at *
  obtain ⟨σ, hσ, rot, hr, he⟩ := h
  obtain ⟨rot', hr', hm⟩ := hg.inv rot hr
  refine ⟨σ, hσ, rot', hr', ?_⟩
  have h1 := im_equiv (sign_of hσ) rot' he
  rw [im_mul, hm] at h1
  have h2 : σ * σ = 1 := by rcases sign_of hσ with rfl | rfl <;> norm_num
  rw [h2, im_one] at h1
  exact EquivK.symm h1

theorem Related.trans {u : Bool} {sym : List (Mat Int)} (hg : IsGroup sym) {a b d : V3 ℝ} (h : Related u sym a b)
    (g : Related u sym b d) : Related u sym a d := by
  rw [Related_iff] at *
  obtain ⟨σ, hσ, rot, hr, he⟩ := h
  obtain ⟨τ, hτ, rot', hr', he'⟩ := g
  refine ⟨τ * σ, ?_, mulMM rot rot', hg.mul _ hr _ hr', ?_⟩
  · rcases hσ with rfl | ⟨h1, rfl⟩ <;> rcases hτ with rfl | ⟨h2, rfl⟩ <;> simp_all
  · rw [← im_mul]
    exact EquivK.trans he' (im_equiv (sign_of hτ) rot' he)

theorem im_neg (σ : ℝ) (rot : Mat Int) (a : V3 ℝ) : im (-σ) rot a = im σ (mulMM inversion rot) a := by
  funext c
  simp [im, mulVM, castMat, mulMM, inversion, diag, vec]
  ring

/-- The operations looped over produce exactly the related points. -/
theorem related_iff_loop (u : Bool) (sym : List (Mat Int)) (hg : IsGroup sym) (a b : V3 ℝ) :
    Related u sym a b ↔ ∃ inv ∈ invertListInit u sym, ∃ rot ∈ sym, EquivK b (image inv a rot) := by
  rw [Related_iff]
  simp only [image_eq]
  unfold invertListInit
  by_cases hi : inversion ∈ sym
  · simp only [hi, if_true, List.mem_singleton]
    constructor
    · rintro ⟨σ, rfl | ⟨_, rfl⟩, rot, hr, he⟩
      · exact ⟨1, rfl, rot, hr, by simpa using he⟩
      · refine ⟨1, rfl, _, hg.mul _ hi _ hr, ?_⟩
        rw [im_neg] at he
        simpa using he
    · rintro ⟨_, rfl, rot, hr, he⟩
      exact ⟨1, .inl rfl, rot, hr, by simpa using he⟩
  · simp only [hi, if_false]
    cases u
    · simp only [Bool.false_eq_true, if_false, List.mem_singleton, false_and, or_false]
      constructor
      · rintro ⟨σ, rfl, rot, hr, he⟩
        exact ⟨1, rfl, rot, hr, by simpa using he⟩
      · rintro ⟨_, rfl, rot, hr, he⟩
        exact ⟨1, rfl, rot, hr, by simpa using he⟩
    · simp only [if_true, true_and, List.mem_cons, List.not_mem_nil, or_false]
      constructor
      · rintro ⟨σ, rfl | rfl, rot, hr, he⟩
        · exact ⟨1, .inl rfl, rot, hr, by simpa using he⟩
        · exact ⟨-1, .inr rfl, rot, hr, by simpa using he⟩
      · rintro ⟨_, rfl | rfl, rot, hr, he⟩
        · exact ⟨1, .inl rfl, rot, hr, by simpa using he⟩
        · exact ⟨-1, .inr rfl, rot, hr, by simpa using he⟩

theorem coincide_of_equiv (thr : ℝ) (hthr : 0 < thr) {a b : V3 ℝ} (h : EquivK a b) : PL.Coincide thr a b := by
  refine (PL.C30_coincide thr hthr a b).2 ?_
  choose n hn using h
  refine ⟨n, fun k => ?_⟩
  rw [hn k]
  have : b k + (n k : ℝ) - b k - n k = 0 := by ring
  rw [this, abs_zero]
  have := Real.pi_pos
  have : 0 < Real.sqrt 3 := Real.sqrt_pos.2 (by norm_num)
  positivity

end
end Jdftx.RK
