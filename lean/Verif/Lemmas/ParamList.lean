import Verif.Spec.ParamList
import Mathlib.Tactic.Ring
import Mathlib.Tactic.Linarith
import Mathlib.Data.List.TakeWhile
import Mathlib.Tactic.Push
import Mathlib.Data.List.Induction
/-! # Lemmas on reading parameters -/
namespace Jdftx.Param

open Jdftx.Input (Str trim isWs)

theorem words_skip (t : Str) : words (t.dropWhile isSpace) = words t := by
  induction t with
  | nil => rfl
  | cons c cs ih =>
    by_cases h : isSpace c = true
    · simp [h, words, ih]
    · simp [h]

theorem words_word (t : Str) (h : inWord t = true) :
    words t = t.takeWhile (fun c => !isSpace c) :: words (t.dropWhile (fun c => !isSpace c)) := by
  induction t with
  | nil => simp [inWord] at h
  | cons c cs ih =>
    have hc : isSpace c = false := by simpa [inWord] using h
    by_cases h2 : inWord cs = true
    · simp [words, hc, h2, ih h2, List.modifyHead]
    · have h3 : cs.takeWhile (fun c => !isSpace c) = [] ∧ cs.dropWhile (fun c => !isSpace c) = cs := by
        cases cs with
        | nil => simp
        | cons d ds =>
          have : isSpace d = true := by simpa [inWord] using h2
          simp [this]
      simp [words, hc, h2, h3.1, h3.2]

theorem inWord_skip (t : Str) (h : t.dropWhile isSpace ≠ []) : inWord (t.dropWhile isSpace) = true := by
  induction t with
  | nil => simp at h
  | cons c cs ih =>
    by_cases hc : isSpace c = true
    · simp only [List.dropWhile_cons, hc, if_true] at h ⊢; exact ih h
    · simp [hc, inWord]

theorem words_nil_iff (t : Str) : words t = [] ↔ t.dropWhile isSpace = [] := by
  rw [← words_skip]
  constructor
  · intro h
    by_contra h2
    rw [words_word _ (inWord_skip t h2)] at h
    simp at h
  · intro h; rw [h]; rfl

theorem words_space (t : Str) : words (t ++ [' ']) = words t := by
  induction t with
  | nil => rfl
  | cons c cs ih =>
    have h : inWord (cs ++ [' ']) = inWord cs := by cases cs <;> simp [inWord, isSpace]
    simp only [List.cons_append, words, ih, h]

theorem words_snoc (t : Str) (c : Char) (hc : isSpace c = true) : words (t ++ [c]) = words t := by
  induction t with
  | nil => simp [words, hc]
  | cons d cs ih =>
    have h : inWord (cs ++ [c]) = inWord cs := by cases cs <;> simp [inWord, hc]
    simp only [List.cons_append, words, ih, h]

theorem isSpace_of_isWs {c : Char} (h : isWs c = true) : isSpace c = true := by
  simp only [isWs, Bool.or_eq_true, decide_eq_true_eq] at h
  rcases h with ((h|h)|h)|h <;> (subst h; rfl)

theorem words_trim (t : Str) : words (trim t) = words t := by
  have h1 : ∀ u : Str, words (u.dropWhile isWs) = words u := by
    intro u
    induction u with
    | nil => rfl
    | cons c cs ih =>
      by_cases h : isWs c = true
      · simp [h, words, ih, isSpace_of_isWs h]
      · simp [h]
  unfold trim
  rw [h1]
  induction t using List.reverseRecOn with
  | nil => rfl
  | append_singleton u c ih =>
    by_cases h : isWs c = true
    · rw [List.reverse_append, words_snoc u c (isSpace_of_isWs h)]
      simpa [h] using ih
    · simp [h]

/-- Text that ends with a space, or nothing. -/
def Closed (t : Str) : Prop := t = [] ∨ ∃ p, t = p ++ [' ']

theorem closed_suffix {t u : Str} (h : Closed t) (hu : u <:+ t) : Closed u := by
  rcases h with h | ⟨p, h⟩
  · subst h; left; exact List.suffix_nil.mp hu
  · subst h
    rcases List.eq_nil_or_concat u with rfl | ⟨v, x, rfl⟩
    · left; rfl
    · right
      obtain ⟨w, hw⟩ := hu
      rw [List.concat_eq_append, ← List.append_assoc] at hw
      have := List.append_inj' hw rfl
      exact ⟨v, by rw [List.concat_eq_append, this.2]⟩

/-- After a word in closed text there is white space. -/
theorem closed_after {t : Str} (h : Closed t) (p : Char → Bool) (hp : p ' ' = false) (ht : t ≠ []) :
    t.dropWhile p ≠ [] := by
  rcases h with h | ⟨q, rfl⟩
  · exact absurd h ht
  · intro hn
    rw [List.dropWhile_eq_nil_iff] at hn
    have := hn ' ' (by simp)
    rw [hp] at this; exact absurd this (by simp)

theorem plain_take {t : Str} (h : Plain t) (u : Str) (hu : ∀ c ∈ u, c ∈ t) : u.takeWhile (fun c => c ≠ '\x00') = u := by
  rw [List.takeWhile_eq_self_iff]
  intro c hc
  simp [(h c (hu c hc)).1]

theorem plain_suffix {t u : Str} (h : Plain t) (hu : u <:+ t) : Plain u :=
  fun c hc => h c (hu.subset hc)

theorem trim_nil_iff (t : Str) : trim t = [] ↔ ∀ c ∈ t, isWs c = true := by
  unfold trim
  rw [List.dropWhile_eq_nil_iff]
  constructor
  · intro h c hc
    by_contra hn
    have h1 : (t.reverse.dropWhile isWs) = [] := by
      by_contra h2
      have h3 := List.head_dropWhile_not isWs h2
      have h4 := h ((t.reverse.dropWhile isWs).head h2) (by simp)
      rw [h4] at h3; simp at h3
    rw [List.dropWhile_eq_nil_iff] at h1
    exact hn (h1 c (by simpa using hc))
  · intro h c hc
    have h1 : c ∈ t.reverse.dropWhile isWs := by simpa using hc
    exact h c (by simpa using (List.dropWhile_suffix isWs).subset h1)

theorem isWs_of_plain {c : Char} (h : c ≠ '\x00' ∧ c ≠ '\x0b' ∧ c ≠ '\x0c') : isWs c = isSpace c := by
  simp [isWs, isSpace, h.2.1, h.2.2]

theorem remainder_words {t : Str} (h : Plain t) : trim t = [] ↔ words t = [] := by
  rw [trim_nil_iff, words_nil_iff, List.dropWhile_eq_nil_iff]
  constructor
  · intro h2 c hc; rw [← isWs_of_plain (h c hc)]; exact h2 c hc
  · intro h2 c hc; rw [isWs_of_plain (h c hc)]; exact h2 c hc

/-- The stream agrees with the words left and the status. -/
structure Agree (params : Str) (s : Stream) (todo : List Str) (st : Status) : Prop where
  text : s.text = params
  suffix : s.rest <:+ params
  words : words s.rest = todo
  ok : st = .ok → s.eof = false ∧ s.fail = false
  ended : st = .ended → s.fail = true ∧ todo = []
  failed : st = .failed → s.fail = true

theorem readWord_end {params : Str} {s : Stream} {st} (h : Agree params s [] st) :
    readWord s.clear = ([], { s with rest := [], eof := true, fail := true }) := by
  have h1 := (words_nil_iff s.rest).mp h.words
  unfold readWord Stream.clear
  simp [h1]

theorem readInt_end {params : Str} {s : Stream} {st} (h : Agree params s [] st) :
    readInt s.clear = (0, { s with rest := [], eof := true, fail := true }) := by
  have h1 := (words_nil_iff s.rest).mp h.words
  unfold readInt Stream.clear
  simp [h1]

theorem agree_end {params : Str} {s : Stream} {todo st} (h : Agree params s todo st) :
    Agree params { s with rest := [], eof := true, fail := true } [] .ended :=
  ⟨h.text, List.nil_suffix, rfl, by simp, by simp, by simp⟩

theorem readWord_word {params : Str} {s : Stream} {w ws st} (hp : Plain params) (hc : Closed params)
    (h : Agree params s (w :: ws) st) :
    ∃ s', readWord s.clear = (w, s') ∧ s'.eof = false ∧ s'.fail = false ∧ Agree params s' ws .ok := by
  have hne : s.rest.dropWhile isSpace ≠ [] := by
    intro hn
    rw [← words_nil_iff, h.words] at hn; simp at hn
  have hw := words_word _ (inWord_skip _ hne)
  rw [words_skip, h.words] at hw
  injection hw with hw1 hw2
  have hsuf : s.rest.dropWhile isSpace <:+ params := (List.dropWhile_suffix _).trans h.suffix
  have hsuf2 : (s.rest.dropWhile isSpace).dropWhile (fun c => !isSpace c) <:+ params :=
    (List.dropWhile_suffix _).trans hsuf
  have hn2 : (s.rest.dropWhile isSpace).dropWhile (fun c => !isSpace c) ≠ [] :=
    closed_after (closed_suffix hc hsuf) _ (by decide) hne
  refine ⟨{ s with rest := (s.rest.dropWhile isSpace).dropWhile (fun c => !isSpace c), eof := false, fail := false },
    ?_, rfl, rfl, ⟨h.text, hsuf2, hw2.symm, by simp, by simp, by simp⟩⟩
  unfold readWord Stream.clear
  simp only [hne, Bool.or_self, Bool.false_eq_true, if_false]
  have : ((s.rest.dropWhile isSpace).takeWhile (fun c => !isSpace c)).takeWhile (fun c => c ≠ '\x00') = w := by
    rw [plain_take hp _ (fun c hc => hsuf.subset ((List.takeWhile_prefix _).subset hc)), ← hw1]
  rw [this]
  have he : ((s.rest.dropWhile isSpace).dropWhile (fun c => !isSpace c)).isEmpty = false := by
    cases hh : (s.rest.dropWhile isSpace).dropWhile (fun c => !isSpace c) with
    | nil => exact absurd hh hn2
    | cons a b => rfl
  rw [he]

theorem digits_aux (ds : Str) (a : ℕ) :
    ds.foldl (fun a c => 10 * a + (c.toNat - 48)) a = a * 10 ^ ds.length + natVal ds := by
  induction ds generalizing a with
  | nil => simp [natVal]
  | cons c cs ih =>
    rw [List.foldl_cons, ih, natVal, List.length_cons, pow_succ]
    ring

theorem digits_eq (ds : Str) : digits ds = natVal ds := by
  unfold digits; rw [digits_aux]; simp

theorem digit_not_space {c : Char} (h : c.isDigit = true) : isSpace c = false := by
  by_contra hn
  have : isSpace c = true := by simpa using hn
  simp only [isSpace, Bool.or_eq_true, decide_eq_true_eq] at this
  rcases this with ((((h1|h1)|h1)|h1)|h1)|h1 <;> (subst h1; revert h; decide)

/-- Digits followed by something else. -/
theorem take_digits (ds u : Str) (hd : ∀ c ∈ ds, c.isDigit = true) (hu : ∀ c ∈ u.head?, c.isDigit = false) :
    (ds ++ u).takeWhile Char.isDigit = ds ∧ (ds ++ u).dropWhile Char.isDigit = u := by
  induction ds with
  | nil =>
    cases u with
    | nil => simp
    | cons c cs => have := hu c (by simp); simp [this]
  | cons d ds ih =>
    have h1 := hd d (by simp)
    have h2 := ih (fun c hc => hd c (by simp [hc]))
    simp [h1, h2.1, h2.2]

theorem sign_digit {c : Char} {cs : Str} (h : c ≠ '-') (h2 : c ≠ '+') : sign (c :: cs) = (false, c :: cs) := by
  simp [sign, h, h2]

/-- Reading a whole number that something other than a digit follows. -/
theorem readInt_lit {s : Stream} {w u : Str} {v : ℤ} (hr : s.rest.dropWhile isSpace = w ++ u) (hv : IsWhole w v)
    (hu : ∀ c ∈ u.head?, c.isDigit = false) (hne : u ≠ []) :
    (Fits v → readInt s.clear = (v, { s with rest := u, eof := false, fail := false })) ∧
    (¬ Fits v → readInt s.clear = (0, { s with rest := u, eof := false, fail := true })) := by
  obtain ⟨ds, hds, hdig, hw⟩ := hv
  have ht := take_digits ds u hdig hu
  have he : u.isEmpty = false := by cases u with
    | nil => exact absurd rfl hne
    | cons a b => rfl
  have hnil : w ++ u ≠ [] := by simp [hne]
  unfold readInt Fits
  simp only [Stream.clear, hr, hnil, Bool.or_self, Bool.false_eq_true, if_false]
  rcases hw with ⟨rfl, hv⟩ | ⟨rfl, hv⟩ | ⟨rfl, hv⟩
  · have hs : sign (w ++ u) = (false, w ++ u) := by
      cases w with
      | nil => exact absurd rfl hds
      | cons d ds =>
        have hd := hdig d (by simp)
        apply sign_digit
        · rintro rfl; revert hd; decide
        · rintro rfl; revert hd; decide
    simp only [hs, ht.1, ht.2, digits_eq, Bool.false_eq_true, if_false, he]
    refine ⟨fun h => ?_, fun h => ?_⟩
    · rw [if_neg (by push Not; exact ⟨hds, by omega, by omega⟩), hv]
    · rw [if_pos (by right; omega)]
  · have hs : sign ('+' :: ds ++ u) = (false, ds ++ u) := by simp [sign]
    simp only [hs, ht.1, ht.2, digits_eq, Bool.false_eq_true, if_false, he]
    refine ⟨fun h => ?_, fun h => ?_⟩
    · rw [if_neg (by push Not; exact ⟨hds, by omega, by omega⟩), hv]
    · rw [if_pos (by right; omega)]
  · have hs : sign ('-' :: ds ++ u) = (true, ds ++ u) := by simp [sign]
    simp only [hs, ht.1, ht.2, digits_eq, if_true, he]
    refine ⟨fun h => ?_, fun h => ?_⟩
    · rw [if_neg (by push Not; exact ⟨hds, by omega, by omega⟩), hv]
    · rw [if_pos (by right; omega)]

theorem readInt_word {params : Str} {s : Stream} {w ws st v} (hc : Closed params)
    (h : Agree params s (w :: ws) st) (hv : IsWhole w v) :
    (Fits v → ∃ s', readInt s.clear = (v, s') ∧ s'.eof = false ∧ s'.fail = false ∧ Agree params s' ws .ok) ∧
    (¬ Fits v → ∃ s', readInt s.clear = (0, s') ∧ s'.eof = false ∧ s'.fail = true ∧ Agree params s' ws .failed) := by
  have hne : s.rest.dropWhile isSpace ≠ [] := by
    intro hn
    rw [← words_nil_iff, h.words] at hn; simp at hn
  have hw := words_word _ (inWord_skip _ hne)
  rw [words_skip, h.words] at hw
  injection hw with hw1 hw2
  have hsuf : s.rest.dropWhile isSpace <:+ params := (List.dropWhile_suffix _).trans h.suffix
  have hsuf2 : (s.rest.dropWhile isSpace).dropWhile (fun c => !isSpace c) <:+ params :=
    (List.dropWhile_suffix _).trans hsuf
  have hn2 : (s.rest.dropWhile isSpace).dropWhile (fun c => !isSpace c) ≠ [] :=
    closed_after (closed_suffix hc hsuf) _ (by decide) hne
  have hu : ∀ c ∈ ((s.rest.dropWhile isSpace).dropWhile (fun c => !isSpace c)).head?, c.isDigit = false := by
    intro c hc
    have h1 := List.head_dropWhile_not (fun c => !isSpace c) hn2
    rw [List.head?_eq_some_head hn2] at hc
    simp only [Option.mem_def, Option.some.injEq] at hc
    rw [hc] at h1
    by_contra hd
    have := digit_not_space (c := c) (by simpa using hd)
    simp [this] at h1
  have key := readInt_lit (s := s) (by rw [hw1]; exact (List.takeWhile_append_dropWhile).symm) hv hu hn2
  exact ⟨fun hf => ⟨_, key.1 hf, rfl, rfl, ⟨h.text, hsuf2, hw2.symm, by simp, by simp, by simp⟩⟩,
    fun hf => ⟨_, key.2 hf, rfl, rfl, ⟨h.text, hsuf2, hw2.symm, by simp, by simp, by simp⟩⟩⟩

theorem readInt_other {params : Str} {s : Stream} {w ws st} (h : Agree params s (w :: ws) st) (hw : NotNumber w) :
    ∃ s', readInt s.clear = (0, s') ∧ s'.eof = false ∧ s'.fail = true ∧ Agree params s' (w :: ws) .failed := by
  have hne : s.rest.dropWhile isSpace ≠ [] := by
    intro hn
    rw [← words_nil_iff, h.words] at hn; simp at hn
  have hin := inWord_skip _ hne
  have hww := words_word _ hin
  rw [words_skip, h.words] at hww
  injection hww with hw1 hw2
  cases hr : s.rest.dropWhile isSpace with
  | nil => exact absurd hr hne
  | cons c cs =>
    rw [hr] at hin hw1
    have hc : isSpace c = false := by simpa [inWord] using hin
    have hnn := hw c (by rw [hw1]; simp [hc])
    have hd : c.isDigit = false := by simpa using hnn.1
    refine ⟨{ s with rest := c :: cs, eof := false, fail := true }, ?_, rfl, rfl,
      ⟨h.text, ?_, ?_, by simp, by simp, by simp⟩⟩
    · unfold readInt
      simp only [Stream.clear, hr, sign_digit hnn.2.2 hnn.2.1]
      simp [hd]
    · rw [← hr]; exact (List.dropWhile_suffix _).trans h.suffix
    · show words (c :: cs) = w :: ws
      rw [← hr, words_skip]; exact h.words

/-- The outcome of `process` from a stream within the run. -/
def outcome {A : Type} (r : Except PErr A × Stream) : Except PErr A :=
  match r.1 with
  | .error e => .error e
  | .ok a => if remainder r.2 = [] then .ok a else .error .extra

theorem process_outcome {A : Type} (p : Prog A) (params : Str) : process p params = outcome (exec p (start params)) := rfl

theorem agree_start (params : Str) : Agree params (start params) (words params) .ok :=
  ⟨rfl, List.suffix_refl _, rfl, by simp [start], by simp, by simp⟩

theorem runs_outcome {A : Type} {params : Str} (hp : Plain params) (hc : Closed params) {p : Prog A} {todo st r}
    (h : Runs (words params) p todo st r) : ∀ s, Agree params s todo st → outcome (exec p s) = r := by
  induction h with
  | done a =>
    intro s ha
    have h1 : remainder s = [] := by
      simp only [remainder, (ha.ok rfl).1, (ha.ok rfl).2]
      simpa using (remainder_words (plain_suffix hp ha.suffix)).mpr ha.words
    simp [exec, outcome, h1]
  | extra a w ws =>
    intro s ha
    have h1 : remainder s ≠ [] := by
      simp only [remainder, (ha.ok rfl).1, (ha.ok rfl).2]
      intro hn
      have := (remainder_words (plain_suffix hp ha.suffix)).mp (by simpa using hn)
      rw [ha.words] at this; simp at this
    simp [exec, outcome, h1]
  | doneFailed a todo st hst =>
    intro s ha
    have h1 : s.fail = true := by
      cases st with
      | ok => exact absurd rfl hst
      | ended => exact (ha.ended rfl).1
      | failed => exact ha.failed rfl
    have h2 : remainder s = [] := by simp [remainder, h1]
    simp [exec, outcome, h2]
  | throw e todo st => intro s _; rfl
  | strEnd d q k st r _ ih =>
    intro s ha
    rw [exec, getStr, readWord_end ha]
    exact ih _ (agree_end ha)
  | strWord d q k w ws st r _ ih =>
    intro s ha
    obtain ⟨s', h1, h2, h3, h4⟩ := readWord_word hp hc ha
    rw [exec, getStr, h1]
    simp only [finish, h2, h3, Bool.false_eq_true, if_false]
    exact ih _ h4
  | enumEnd f d q k st r _ ih =>
    intro s ha
    rw [exec, getEnum, readWord_end ha]
    exact ih _ (agree_end ha)
  | enumWord f d q k w ws st r e hf _ ih =>
    intro s ha
    obtain ⟨s', h1, h2, h3, h4⟩ := readWord_word hp hc ha
    rw [exec, getEnum, h1]
    simp only [h2, hf, Bool.false_eq_true, if_false]
    exact ih _ h4
  | enumOther f d q k w ws st r hf _ ih =>
    intro s ha
    obtain ⟨s', h1, h2, h3, h4⟩ := readWord_word hp hc ha
    rw [exec, getEnum, h1]
    simp only [h2, hf, Bool.false_eq_true, if_false]
    exact ih _ h4
  | intEnd d q k st r _ ih =>
    intro s ha
    rw [exec, getInt, readInt_end ha]
    exact ih _ (agree_end ha)
  | intWord d q k w ws st r v hv hf _ ih =>
    intro s ha
    obtain ⟨s', h1, h2, h3, h4⟩ := (readInt_word hc ha hv).1 hf
    rw [exec, getInt, h1]
    simp only [finish, h2, h3, Bool.false_eq_true, if_false]
    exact ih _ h4
  | intLarge d q k w ws st r v hv hf _ ih =>
    intro s ha
    obtain ⟨s', h1, h2, h3, h4⟩ := (readInt_word hc ha hv).2 hf
    rw [exec, getInt, h1]
    simp only [finish, h2, h3, Bool.false_eq_true, if_false, if_true]
    exact ih _ h4
  | intOther d q k w ws st r hw _ ih =>
    intro s ha
    obtain ⟨s', h1, h2, h3, h4⟩ := readInt_other ha hw
    rw [exec, getInt, h1]
    simp only [finish, h2, h3, Bool.false_eq_true, if_false, if_true]
    exact ih _ h4
  | rewind k todo r _ ih =>
    intro s ha
    have h1 := ha.ok rfl
    rw [exec]
    apply ih
    simp only [Stream.rewind, h1.2, Bool.false_eq_true, if_false]
    exact ⟨ha.text, by rw [ha.text]; exact List.suffix_refl _, by rw [ha.text], by simp, by simp, by simp⟩
  | rewindNot k todo st r hst _ ih =>
    intro s ha
    have h1 : s.fail = true := by
      cases st with
      | ok => exact absurd rfl hst
      | ended => exact (ha.ended rfl).1
      | failed => exact ha.failed rfl
    rw [exec]
    apply ih
    simp only [Stream.rewind, h1, if_true]
    exact ⟨ha.text, ha.suffix, ha.words, fun h => absurd h hst, fun h => ⟨rfl, (ha.ended h).2⟩, fun _ => rfl⟩

theorem noInt_runs {A : Type} (all : List Str) {p : Prog A} (h : NoInt p) :
    ∀ todo st, ∃ r, Runs all p todo st r := by
  induction h with
  | done a =>
    intro todo st
    by_cases hst : st = .ok
    · subst hst
      cases todo with
      | nil => exact ⟨_, .done a⟩
      | cons w ws => exact ⟨_, .extra a w ws⟩
    · exact ⟨_, .doneFailed a todo st hst⟩
  | throw e => intro todo st; exact ⟨_, .throw e todo st⟩
  | str d q k _ ih =>
    intro todo st
    cases todo with
    | nil => obtain ⟨r, h⟩ := ih d (if q then some .missing else none) [] .ended; exact ⟨r, .strEnd d q k st r h⟩
    | cons w ws => obtain ⟨r, h⟩ := ih w none ws .ok; exact ⟨r, .strWord d q k w ws st r h⟩
  | enum f d q k _ ih =>
    intro todo st
    cases todo with
    | nil => obtain ⟨r, h⟩ := ih d (if q then some .missing else none) [] .ended; exact ⟨r, .enumEnd f d q k st r h⟩
    | cons w ws =>
      cases hf : f w with
      | none => obtain ⟨r, h⟩ := ih d (some .notAnOption) ws .ok; exact ⟨r, .enumOther f d q k w ws st r hf h⟩
      | some e => obtain ⟨r, h⟩ := ih e none ws .ok; exact ⟨r, .enumWord f d q k w ws st r e hf h⟩
  | rewind k _ ih =>
    intro todo st
    by_cases hst : st = .ok
    · subst hst; obtain ⟨r, h⟩ := ih all .ok; exact ⟨r, .rewind k todo r h⟩
    · obtain ⟨r, h⟩ := ih todo st; exact ⟨r, .rewindNot k todo st r hst h⟩

theorem readAll_end (all : List Str) (ps : List (Str × Bool)) (acc : List Str) (st : Status) :
    Runs all (readAll ps acc) [] st
      (if ps.any (·.2) then .error .missing else .ok (acc ++ ps.map (·.1))) := by
  induction ps generalizing acc st with
  | nil =>
    simp only [readAll, List.any_nil, Bool.false_eq_true, if_false, List.map_nil, List.append_nil]
    cases st with
    | ok => exact .done acc
    | ended => exact .doneFailed acc [] _ (by simp)
    | failed => exact .doneFailed acc [] _ (by simp)
  | cons p ps ih =>
    obtain ⟨d, q⟩ := p
    rw [readAll]
    apply Runs.strEnd
    cases q with
    | true =>
      simp only [List.any_cons, Bool.true_or, if_true]
      exact .throw _ _ _
    | false =>
      have := ih (acc ++ [d]) .ended
      simp only [List.any_cons, Bool.false_or, Bool.false_eq_true, if_false, List.map_cons]
      rw [List.append_assoc] at this
      exact this

theorem readAll_runs (all : List Str) (ps : List (Str × Bool)) (acc ws : List Str) :
    Runs all (readAll ps acc) ws .ok
      (if (ps.drop ws.length).any (·.2) then .error .missing
       else if ps.length < ws.length then .error .extra
       else .ok (acc ++ ws ++ (ps.drop ws.length).map (·.1))) := by
  induction ws generalizing ps acc with
  | nil =>
    have := readAll_end all ps acc .ok
    simpa only [List.length_nil, List.drop_zero, Nat.not_lt_zero, if_false, List.append_nil] using this
  | cons w ws ih =>
    cases ps with
    | nil => simpa [readAll] using Runs.extra (all := all) acc w ws
    | cons p ps =>
      obtain ⟨d, q⟩ := p
      rw [readAll]
      apply Runs.strWord
      have := ih ps (acc ++ [w])
      simp only [List.length_cons, List.drop_succ_cons, Nat.add_lt_add_iff_right]
      rw [List.append_assoc acc] at this
      exact this

theorem plain_line {t : Str} (h : Plain t) : Plain (t ++ [' ']) := by
  intro c hc
  rcases List.mem_append.mp hc with h1 | h1
  · exact h c h1
  · simp only [List.mem_singleton] at h1; subst h1; decide

theorem closed_line (t : Str) : Closed (t ++ [' ']) := Or.inr ⟨t, rfl⟩

theorem line_runs {A : Type} {t : Str} (h : Plain t) {p : Prog A} {r} (hr : Runs (words t) p (words t) .ok r) :
    processLine p t = r := by
  rw [processLine, process_outcome]
  rw [← words_space t] at hr
  exact runs_outcome (plain_line h) (closed_line t) hr _ (agree_start _)

end Jdftx.Param
