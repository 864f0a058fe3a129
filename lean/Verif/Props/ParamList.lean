import Verif.Lemmas.ParamList
/-!
# C113: parameters of a command are its words, and none is dropped silently

`processLine p text` (model) is what becomes of a line with parameters `text` for a command that makes the calls `p`.
`words`, `Runs` and `expected` are the specification (`Spec/ParamList.lean`).
-/
namespace Jdftx.Param

open Jdftx.Input (Str)

/-- A command that reads the strings `ps` (each with its default and whether it is required) gets the words of the
line in order, and the defaults for those that are missing. A missing required one is an error, and so are words that
are left over. -/
theorem C113_command (ps : List (Str × Bool)) (text : Str) (h : Plain text) :
    processLine (readAll ps []) text = expected ps (words text) := by
  apply line_runs h
  have := readAll_runs (words text) ps [] (words text)
  simpa only [expected, List.nil_append] using this

/-- Every command that reads strings and options, whatever it does with them and whichever errors it catches, behaves
as specified by words. -/
theorem C113_words {A : Type} (p : Prog A) (hp : NoInt p) (text : Str) (h : Plain text) :
    ∃ r, Runs (words text) p (words text) .ok r ∧ processLine p text = r := by
  obtain ⟨r, hr⟩ := noInt_runs (words text) hp (words text) .ok
  exact ⟨r, hr, line_runs h hr⟩

/-- With numbers the same, as long as each number that the command reads is a word that is a whole number, or a word
that does not start like one. Missing: words that start like a number and go on otherwise, see
`C113_split_fails`. -/
theorem C113_numbers_partial {A : Type} (p : Prog A) (text : Str) (h : Plain text) (r : Except PErr A)
    (hr : Runs (words text) p (words text) .ok r) : processLine p text = r := line_runs h hr

/-- A number outside the range of `int` is an error. -/
theorem C113_range (dflt v : ℤ) (required : Bool) (text w : Str) (ws : List Str) (h : Plain text)
    (hw : words text = w :: ws) (hv : IsWhole w v) (hf : ¬ Fits v) :
    processLine (.int dflt required fun v e => match e with
      | some e => .throw e
      | none => .done v) text = .error .conversion := by
  apply line_runs h
  rw [hw]
  exact .intLarge _ _ _ _ _ _ _ v hv hf (.throw _ _ _)

/-- A word that is a number is read with its value, and nothing else is taken. -/
theorem C113_value (dflt v : ℤ) (required : Bool) (text w : Str) (h : Plain text)
    (hw : words text = [w]) (hv : IsWhole w v) (hf : Fits v) :
    processLine (.int dflt required fun v e => match e with
      | some e => .throw e
      | none => .done v) text = .ok v := by
  apply line_runs h
  rw [hw]
  exact .intWord _ _ _ _ _ _ _ v hv hf (.done _)

/-- The text that is reported as left over has exactly the words that were not read. -/
theorem C113_remainder (s : Stream) (he : s.eof = false) (hf : s.fail = false) : words (remainder s) = words s.rest := by
  simp only [remainder, he, hf, Bool.false_eq_true, if_false]
  exact words_trim s.rest

/-- The space that is added at the end of the line is needed: without it the last word is not used. -/
theorem C113_space_needed (dflt w : Str) (hw : w ≠ []) (hs : ∀ c ∈ w, isSpace c = false) :
    process (readAll [(dflt, false)] []) w = .ok [dflt] := by
  have h1 : w.dropWhile isSpace = w := by
    cases w with
    | nil => rfl
    | cons c cs => simp [hs c (by simp)]
  have h2 : w.dropWhile (fun c => !isSpace c) = [] := by
    rw [List.dropWhile_eq_nil_iff]; intro c hc; simp [hs c hc]
  simp [process, readAll, exec, getStr, start, Stream.clear, readWord, h1, h2, hw, finish, remainder]

/-- **Violation.** A single word that starts with a number is taken as two parameters: a command with an integer and
another parameter accepts `10.5`, and gets 10 and `.5`. `fluid-gummel-loop` (commands/fluid.cpp:92-95)
reads an integer and then another parameter without a further check (that one is a floating-point number, which is not
modelled; the theorem is for a string). -/
theorem C113_split_fails (ds u dflt : Str) (hd : ds ≠ []) (hds : ∀ c ∈ ds, c.isDigit) (hf : Fits (natVal ds))
    (hu : u ≠ []) (hus : ∀ c ∈ u, isSpace c = false) (hud : ∀ c ∈ u.head?, c.isDigit = false) (hp : Plain u) :
    words (ds ++ u) = [ds ++ u] ∧
    processLine (.int 0 true fun v e => match e with
      | some e => .throw e
      | none => .str dflt false fun w e => match e with
        | some e => .throw e
        | none => .done (v, w)) (ds ++ u) = .ok ((natVal ds : ℤ), u) := by
  have hsp : ∀ c ∈ ds ++ u, isSpace c = false := by
    intro c hc
    rcases List.mem_append.mp hc with h | h
    · exact digit_not_space (hds c h)
    · exact hus c h
  have single : ∀ t : Str, t ≠ [] → (∀ c ∈ t, isSpace c = false) → inWord t = true ∧ words t = [t] := by
    intro t ht hts
    have hin : inWord t = true := by
      cases t with
      | nil => exact absurd rfl ht
      | cons c cs => simp [inWord, hts c (by simp)]
    refine ⟨hin, ?_⟩
    rw [words_word t hin, List.takeWhile_eq_self_iff.mpr (fun c hc => by simp [hts c hc]),
      List.dropWhile_eq_nil_iff.mpr (fun c hc => by simp [hts c hc])]
    rfl
  have hne : ds ++ u ≠ [] := by simp [hd]
  refine ⟨(single _ hne hsp).2, ?_⟩
  have hskip : ((ds ++ u) ++ [' ']).dropWhile isSpace = ds ++ (u ++ [' ']) := by
    cases ds with
    | nil => exact absurd rfl hd
    | cons c cs => simp [digit_not_space (hds c (by simp))]
  have hlit := (readInt_lit (s := start ((ds ++ u) ++ [' '])) (w := ds) (u := u ++ [' ']) (v := natVal ds) hskip
    ⟨ds, hd, hds, Or.inl ⟨rfl, rfl⟩⟩ (by
      intro c hc
      cases u with
      | nil => exact absurd rfl hu
      | cons x xs => exact hud c (by simpa using hc)) (by simp)).1 hf
  have hu2 : (u ++ [' ']).dropWhile isSpace = u ++ [' '] := by
    cases u with
    | nil => exact absurd rfl hu
    | cons x xs => simp [hus x (by simp)]
  have hu3 : (u ++ [' ']).takeWhile (fun c => !isSpace c) = u ∧ (u ++ [' ']).dropWhile (fun c => !isSpace c) = [' '] := by
    have hall : ∀ x ∈ u, (fun c => !isSpace c) x = true := fun c hc => by simp [hus c hc]
    rw [List.takeWhile_append_of_pos hall, List.dropWhile_append_of_pos hall]
    constructor
    · simp [isSpace]
    · simp [isSpace]
  have e1 : getInt 0 true (start ((ds ++ u) ++ [' '])) =
      (((natVal ds : ℤ), none), ⟨(ds ++ u) ++ [' '], u ++ [' '], false, false⟩) := by
    rw [getInt, hlit]; rfl
  have e2 : getStr dflt false ⟨(ds ++ u) ++ [' '], u ++ [' '], false, false⟩ =
      ((u, none), ⟨(ds ++ u) ++ [' '], [' '], false, false⟩) := by
    simpa [getStr, readWord, Stream.clear, hu2, hu3.1, hu3.2, finish] using fun x hx => (hp x hx).1
  rw [processLine, process]
  simp only [exec, e1, e2]
  rfl

/-- **Violation.** If a command catches the error of a word that is not a number, the words that are left are dropped
without a message. (No command of this version does so.) -/
theorem C113_caught_fails (dflt : ℤ) (required : Bool) (text w : Str) (ws : List Str) (h : Plain text)
    (hw : words text = w :: ws) (hn : NotNumber w) :
    processLine (.int dflt required fun v _ => .done v) text = .ok dflt := by
  apply line_runs h
  rw [hw]
  exact .intOther _ _ _ _ _ _ _ hn (.doneFailed _ _ _ (by simp))

/-- **Violation.** Going back to the first parameter does not work after a call that found no parameter: the next call
gets its default, not the first word. -/
theorem C113_rewind_fails (dflt text w : Str) (h : Plain text) (hw : words text = [w]) :
    processLine (.str dflt false fun _ _ => .str dflt false fun _ _ => .rewind (.str dflt false fun v _ => .done v)) text
      = .ok dflt := by
  apply line_runs h
  rw [hw]
  exact .strWord _ _ _ _ _ _ _ (.strEnd _ _ _ _ _ (.rewindNot _ _ _ _ (by simp) (.strEnd _ _ _ _ _ (.doneFailed _ _ _ (by simp)))))

/-- After a call that got a word, going back works: the next call gets the first word again, as for a command with an
optional key in front. -/
theorem C113_rewind {A : Type} (lookup : Str → Option ℤ) (dflt : ℤ) (p : Prog A) (text w : Str) (ws : List Str) (h : Plain text)
    (hw : words text = w :: ws) (hl : lookup w = none) (hp : NoInt p) :
    processLine (.enum lookup dflt true fun _ e => match e with
      | some _ => .rewind p
      | none => p) text = processLine p text := by
  obtain ⟨r, hr, h2⟩ := C113_words p hp text h
  rw [h2]
  apply line_runs h
  rw [hw] at hr ⊢
  exact .enumOther _ _ _ _ _ _ _ _ hl (.rewind _ _ _ hr)

/-! ## Examples -/

/-- Two words, three parameters, the last with a default. -/
example : processLine (readAll [([], true), ([], true), ("x".toList, false)] []) " a  bc".toList =
    .ok ["a".toList, "bc".toList, "x".toList] := by decide +kernel

example : processLine (readAll [([], true), ([], true)] []) " a".toList = .error .missing := by decide +kernel

example : processLine (readAll [([], true)] []) " a b ".toList = .error .extra := by decide +kernel

example : words " a\t bc ".toList = ["a".toList, "bc".toList] := by decide +kernel

example : Plain " a\t bc ".toList := by unfold Plain; decide +kernel

example : NoInt (readAll [([], true), ("x".toList, false)] []) :=
  .str _ _ _ fun _ e => match e with
    | some _ => .throw _
    | none => .str _ _ _ fun _ e => match e with
      | some _ => .throw _
      | none => .done _

example : IsWhole "-120".toList (-120) ∧ Fits (-120) :=
  ⟨⟨"120".toList, by decide, by decide, Or.inr (Or.inr ⟨by decide, by decide⟩)⟩, by unfold Fits; decide⟩

example : IsWhole "3000000000".toList 3000000000 ∧ ¬ Fits 3000000000 :=
  ⟨⟨"3000000000".toList, by decide, by decide, Or.inl ⟨rfl, by decide +kernel⟩⟩, by unfold Fits; decide⟩

/-- The word `10.5` meets the hypotheses of `C113_split_fails`. -/
example : Fits (natVal "10".toList) ∧ (∀ c ∈ ".5".toList, isSpace c = false) ∧
    (∀ c ∈ (".5".toList).head?, c.isDigit = false) ∧ Plain ".5".toList := by
  unfold Fits Plain; decide +kernel

/-- `C113_remainder`: reading one of three words leaves two. -/
example : words (remainder (getStr [] true (start " a  b c ".toList)).2) = ["b".toList, "c".toList] := by decide +kernel

example : NotNumber "abc".toList := by unfold NotNumber; decide

end Jdftx.Param
