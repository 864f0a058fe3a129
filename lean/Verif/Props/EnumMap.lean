import Verif.Model.EnumMap
import Verif.Model.EnumTables

/-!
# C18: enumeration names round-trip
-/
namespace Jdftx.EnumMap

variable {S E : Type}

theorem find_assign {K V : Type} (eqv : K → K → Bool)
    (hsymm : ∀ a b, eqv a b → eqv b a) (htrans : ∀ a b c, eqv a b → eqv b c → eqv a c)
    (m : List (K × V)) (key : K) (v : V) (q : K) :
    find eqv (assign eqv m key v) q = if eqv key q then some v else find eqv m q := by
  induction m with
  | nil => simp [assign, find]
  | cons a rest ih =>
    obtain ⟨k, w⟩ := a
    unfold assign
    by_cases h : eqv k key
    · rw [if_pos h]
      by_cases hq : eqv key q
      · simp [find, hq, htrans _ _ _ h hq]
      · have : ¬ eqv k q := fun hk => hq (htrans _ _ _ (hsymm _ _ h) hk)
        simp [find, hq, this]
    · rw [if_neg h]
      simp only [find]
      by_cases hk : eqv k q
      · have : ¬ eqv key q := fun hq => h (htrans _ _ _ hk (hsymm _ _ hq))
        simp [hk, this]
      · simp [hk, ih]

/-- Looking up a key gives the value of the last argument pair with that key. -/
theorem find_foldl {K V A : Type} (eqv : K → K → Bool)
    (hsymm : ∀ a b, eqv a b → eqv b a) (htrans : ∀ a b c, eqv a b → eqv b c → eqv a c)
    (f : A → K) (g : A → V) (args : List A) (m : List (K × V)) (q : K) :
    find eqv (args.foldl (fun m a => assign eqv m (f a) (g a)) m) q =
      ((args.reverse.find? fun a => eqv (f a) q).map g).or (find eqv m q) := by
  induction args generalizing m with
  | nil => simp
  | cons a rest ih =>
    rw [List.foldl_cons, ih, find_assign eqv hsymm htrans]
    simp only [List.reverse_cons, List.find?_append, List.find?_singleton]
    cases hf : rest.reverse.find? fun a => eqv (f a) q with
    | some x => simp
    | none => by_cases h : eqv (f a) q <;> simp [h]

theorem construct_eq [DecidableEq E] (ieq : S → S → Bool) (args : List (E × S)) :
    construct ieq args =
      ⟨args.foldl (fun m a => assign ieq m a.2 a.1) [],
       args.foldl (fun m a => assign (fun x y => decide (x = y)) m a.1 a.2) []⟩ := by
  unfold construct
  suffices h : ∀ (m : EMap S E), args.foldl (fun m a => (⟨assign ieq m.stringToEnum a.2 a.1,
      assign (fun x y => decide (x = y)) m.enumToString a.1 a.2⟩ : EMap S E)) m =
      ⟨args.foldl (fun m a => assign ieq m a.2 a.1) m.stringToEnum,
       args.foldl (fun m a => assign (fun x y => decide (x = y)) m a.1 a.2) m.enumToString⟩ from h ⟨[], []⟩
  intro m
  induction args generalizing m with
  | nil => rfl
  | cons a rest ih => rw [List.foldl_cons, ih]; rfl

section
variable [DecidableEq E] (ieq : S → S → Bool) 
    (hsymm : ∀ a b, ieq a b → ieq b a) (htrans : ∀ a b c, ieq a b → ieq b c → ieq a c)
include hsymm htrans

/-- For every table whose names are pairwise different up to case: the printed name of a listed option is a
name listed for it, and reading that name in any capitalisation gives the option back. -/
theorem C18_roundtrip (args : List (E × S))
    (hdistinct : args.Pairwise fun a b => ¬ ieq a.2 b.2) (e : E) (he : ∃ s, (e, s) ∈ args) :
    ∃ s, getString (construct ieq args) e = .ok s ∧ (e, s) ∈ args ∧
      ∀ s', ieq s s' → getEnum ieq (construct ieq args) s' = some e := by
  rw [construct_eq]
  obtain ⟨s0, hs0⟩ := he
  have h1 := find_foldl (fun x y : E => decide (x = y)) (by simp [eq_comm])
    (by intro a b c; simp; exact fun h h' => h.trans h') (fun a : E × S => a.1) (fun a => a.2) args [] e
  simp only [find, Option.or_none] at h1
  cases hf : args.reverse.find? fun a => decide (a.1 = e) with
  | none =>
    rw [List.find?_eq_none] at hf
    exact absurd (hf (e, s0) (by simpa using hs0)) (by simp)
  | some a =>
    have ha1 : a.1 = e := by simpa using List.find?_some hf
    have ha2 : a ∈ args := by simpa using List.mem_of_find?_eq_some hf
    obtain ⟨e', s⟩ := a
    simp only at ha1
    subst ha1
    rw [hf] at h1
    refine ⟨s, by simp [getString, h1], ha2, fun s' hs' => ?_⟩
    have h2 := find_foldl ieq hsymm htrans (fun a : E × S => a.2) (fun a => a.1) args [] s'
    unfold getEnum
    simp only [find, Option.or_none] at h2
    rw [h2]
    cases hg : args.reverse.find? fun a => ieq a.2 s' with
    | none =>
      rw [List.find?_eq_none] at hg
      exact absurd hs' (hg (e', s) (by simpa using ha2))
    | some b =>
      have hb1 := List.find?_some hg
      have hb2 : b ∈ args := by simpa using List.mem_of_find?_eq_some hg
      have heq : b = (e', s) := by
        refine Classical.byContradiction fun hne => ?_
        have hsym : ∀ x y : E × S, ¬ ieq x.2 y.2 → ¬ ieq y.2 x.2 := fun x y h h' => h (hsymm _ _ h')
        have hp : ∀ x ∈ args, ∀ y ∈ args, x ≠ y → ¬ ieq x.2 y.2 := by
          intro x hx y hy hxy
          exact List.Pairwise.forall_of_forall_of_flip (R := fun x y : E × S => x ≠ y → ¬ ieq x.2 y.2)
            (fun x _ h => absurd rfl h)
            (hdistinct.imp (S := fun x y : E × S => x ≠ y → ¬ ieq x.2 y.2) fun h _ => h)
            (hdistinct.imp (S := flip fun x y : E × S => x ≠ y → ¬ ieq x.2 y.2) fun h _ => hsym _ _ h) hx hy hxy
        exact hp b hb2 (e', s) ha2 hne (htrans _ _ _ hb1 (hsymm _ _ hs'))
      simp [heq]

/-- Reading a key succeeds exactly if it equals some listed name up to case; otherwise it is rejected. -/
theorem C18_reject (args : List (E × S)) (key : S) :
    (getEnum ieq (construct ieq args) key = none ↔ ∀ e s, (e, s) ∈ args → ¬ ieq s key) ∧
    ∀ e, getEnum ieq (construct ieq args) key = some e → ∃ s, (e, s) ∈ args ∧ ieq s key := by
  rw [construct_eq]
  have h2 := find_foldl ieq hsymm htrans (fun a : E × S => a.2) (fun a => a.1) args [] key
  simp only [find, Option.or_none] at h2
  simp only [getEnum]
  rw [h2]
  constructor
  · simp only [Option.map_eq_none_iff, List.find?_eq_none, List.mem_reverse, Prod.forall]
  · intro e he
    rw [Option.map_eq_some_iff] at he
    obtain ⟨a, ha, rfl⟩ := he
    exact ⟨a.2, by simpa using List.mem_of_find?_eq_some ha,
      List.find?_some (p := fun a : E × S => ieq a.2 key) ha⟩

omit hsymm htrans in
/-- Printing an option that is not in the table dereferences the end iterator. -/
theorem C18_missing_ub (args : List (E × S)) (e : E) :
    getString (construct ieq args) e = .error .ub ↔ ∀ s, (e, s) ∉ args := by
  rw [construct_eq]
  have h1 := find_foldl (fun x y : E => decide (x = y)) (by simp [eq_comm])
    (by intro a b c; simp; exact fun h h' => h.trans h') (fun a : E × S => a.1) (fun a => a.2) args [] e
  simp only [find, Option.or_none] at h1
  unfold getString
  simp only [h1]
  cases hf : args.reverse.find? fun a => decide (a.1 = e) with
  | none =>
    rw [List.find?_eq_none] at hf
    simp only [Option.map_none, true_iff]
    intro s hs
    exact hf (e, s) (by simpa using hs) (by simp)
  | some a =>
    have ha1 : a.1 = e := by simpa using List.find?_some hf
    have ha2 : a ∈ args := by simpa using List.mem_of_find?_eq_some hf
    simp only [Option.map_some, reduceCtorEq, false_iff]
    exact fun h => h a.2 (by rw [← ha1]; exact ha2)

end

/-- Case-insensitive equality of core/string.h:37-43 on character lists. -/
def ieqChars (a b : List Char) : Bool := a.map Char.toUpper = b.map Char.toUpper

/-- In every option table of the code the names are pairwise different up to case. -/
theorem C18_tables_distinct : ∀ t ∈ allTables, t.Pairwise fun a b => ¬ ieqChars a.2 b.2 := by
  decide +kernel

/-- Round trip for the actual tables of the code: every listed option of every table prints as one of its
names, and every capitalisation of that name reads back as the option. -/
theorem C18_tables (t : List (Nat × List Char)) (ht : t ∈ allTables) (e : Nat) (he : ∃ s, (e, s) ∈ t) :
    ∃ s, getString (construct ieqChars t) e = .ok s ∧ (e, s) ∈ t ∧
      ∀ s', s.map Char.toUpper = s'.map Char.toUpper → getEnum ieqChars (construct ieqChars t) s' = some e := by
  obtain ⟨s, h1, h2, h3⟩ := C18_roundtrip ieqChars
    (fun a b h => by simp [ieqChars] at *; exact h.symm)
    (fun a b c h h' => by simp [ieqChars] at *; exact h.trans h') t (C18_tables_distinct t ht) e he
  exact ⟨s, h1, h2, fun s' hs' => h3 s' (by simpa [ieqChars] using hs')⟩

example : getEnum ieqChars (construct ieqChars t_spinMap) ['Z', '-', 's', 'p', 'I', 'n'] = some 1 ∧
    getString (construct ieqChars t_spinMap) 1 = .ok ['z', '-', 's', 'p', 'i', 'n'] ∧
    getEnum ieqChars (construct ieqChars t_spinMap) ['z', 's', 'p', 'i', 'n'] = none := by decide +kernel
/-- With two names equal up to case the round trip can fail: the hypothesis of `C18_roundtrip` is needed. -/
example : getString (construct ieqChars [(0, ['a']), (1, ['A'])]) 0 = .ok ['a'] ∧
    getEnum ieqChars (construct ieqChars [(0, ['a']), (1, ['A'])]) ['a'] = some 1 := by decide +kernel

end Jdftx.EnumMap
