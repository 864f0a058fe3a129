import Verif.Lemmas.InputText
/-!
# C13 - C16: reading input files
-/
namespace Jdftx.Input
open Jdftx.Spec

theorem substStep_cases (env : Env) (s : Str) :
    (substStep env s = .ok none ∧ ¬ HasRef s) ∨
    (substStep env s = .error .die ∧ ∃ pre rest, s = pre ++ '$' :: '{' :: rest ∧ ¬ HasRef pre ∧ '}' ∉ rest) ∨
    (∃ pre name post, substStep env s = .ok (some (pre ++ env name ++ post)) ∧
      s = pre ++ '$' :: '{' :: name ++ '}' :: post ∧ ¬ HasRef pre ∧ '}' ∉ name) := by
  unfold substStep
  rcases ho : splitOpen s with _ | ⟨pre, rest⟩
  · left; exact ⟨rfl, splitOpen_none ho⟩
  · right
    obtain ⟨h1, h2, _⟩ := splitOpen_some ho
    simp only
    rcases hc : splitClose rest with _ | ⟨name, post⟩
    · left; exact ⟨rfl, pre, rest, h1, h2, splitClose_none hc⟩
    · right
      obtain ⟨h3, h4⟩ := splitClose_some hc
      exact ⟨pre, name, post, rfl, by rw [h1, h3]; simp, h2, h4⟩

/-- **C13** (partial: values without `$`). If no variable's value contains a `$`, substitution ends for every
line, and either aborts or leaves a line without references. The full statement, for every environment, is
false (`C13_violation`, `C13_violation_set`). -/
theorem C13_terminates_partial (env : Env) (henv : ∀ n, '$' ∉ env n) (s : Str) :
    environmentSubstitute env s = .error .die ∨
    ∃ t, environmentSubstitute env s = .ok t ∧ ¬ HasRef t := by
  have key : ∀ (k : Nat) (s : Str), s.count '$' ≤ k →
      substN env (k + 1) s = some (.error .die) ∨ ∃ t, substN env (k + 1) s = some (.ok t) ∧ ¬ HasRef t := by
    intro k
    induction k with
    | zero =>
      intro s hs
      unfold substN
      rcases substStep_cases env s with ⟨h1, h2⟩ | ⟨h1, _⟩ | ⟨pre, name, post, h1, h2, _⟩
      · rw [h1]; right; exact ⟨s, rfl, h2⟩
      · rw [h1]; left; rfl
      · exfalso
        rw [h2] at hs
        simp [List.count_append] at hs
    | succ k ih =>
      intro s hs
      rw [substN]
      rcases substStep_cases env s with ⟨h1, h2⟩ | ⟨h1, _⟩ | ⟨pre, name, post, h1, h2, _⟩
      · rw [h1]; right; exact ⟨s, rfl, h2⟩
      · rw [h1]; left; rfl
      · rw [h1]
        apply ih
        rw [h2] at hs
        simp only [List.count_append, List.count_cons] at hs ⊢
        have : (env name).count '$' = 0 := List.count_eq_zero_of_not_mem (henv name)
        simp at hs
        omega
  rcases key _ s (le_refl _) with h | ⟨t, h1, h2⟩
  · left; exact environmentSubstitute_eq h
  · right; exact ⟨t, environmentSubstitute_eq h1, h2⟩

theorem not_hasRef_of_no_dollar {s : Str} (h : '$' ∉ s) : ¬ HasRef s := by
  rintro ⟨a, b, rfl⟩; simp at h

/-- **C13** (partial: values without `$`, every `$` in the line opens a terminated reference). The result is the
line with each reference replaced by the value of its variable, in one left-to-right pass. -/
theorem C13_result_partial (env : Env) (henv : ∀ n, '$' ∉ env n) (s t : Str) (h : Replaced env s t) :
    environmentSubstitute env s = .ok t := by
  have key : ∀ (s t : Str), Replaced env s t → ∀ head : Str, '$' ∉ head →
      ∃ n, substN env n (head ++ s) = some (.ok (head ++ t)) := by
    intro s t hr
    induction hr with
    | plain s hs =>
      intro head hh
      refine ⟨1, ?_⟩
      unfold substN
      have hno : ¬ HasRef (head ++ s) := not_hasRef_of_no_dollar (by simp [hh, hs])
      rcases substStep_cases env (head ++ s) with ⟨h1, _⟩ | ⟨_, p, r, h1, _⟩ | ⟨p, n, q, _, h1, _⟩
      · rw [h1]
      · exact absurd ⟨p, r, h1⟩ hno
      · exact absurd ⟨p, n ++ '}' :: q, by rw [h1]; simp⟩ hno
    | ref pre name post t hpre hname hpost ih =>
      intro head hh
      obtain ⟨n, hn⟩ := ih (head ++ pre ++ env name) (by simp [hh, hpre, henv name])
      refine ⟨n + 1, ?_⟩
      have hstep : substStep env (head ++ (pre ++ '$' :: '{' :: name ++ '}' :: post)) =
          .ok (some (head ++ pre ++ env name ++ post)) := by
        have hopen : ∀ (p r : Str), '$' ∉ p → splitOpen (p ++ '$' :: '{' :: r) = some (p, r) := by
          intro p
          induction p with
          | nil => intro r _; simp [splitOpen]
          | cons c cs ihp =>
            intro r hc
            simp only [List.mem_cons, not_or] at hc
            have := ihp r hc.2
            cases cs with
            | nil =>
              simp only [List.cons_append, List.nil_append] at this ⊢
              rw [splitOpen]
              rw [if_neg (fun e => hc.1 e.1.symm), this]; rfl
            | cons d ds =>
              simp only [List.cons_append] at this ⊢
              rw [splitOpen]
              rw [if_neg (fun e => hc.1 e.1.symm), this]; rfl
        have hclose : ∀ (p r : Str), '}' ∉ p → splitClose (p ++ '}' :: r) = some (p, r) := by
          intro p
          induction p with
          | nil => intro r _; simp [splitClose]
          | cons c cs ihp =>
            intro r hc
            simp only [List.mem_cons, not_or] at hc
            rw [List.cons_append, splitClose, if_neg (fun e => hc.1 e.symm), ihp r hc.2]; rfl
        unfold substStep
        have e : head ++ (pre ++ '$' :: '{' :: name ++ '}' :: post) =
            (head ++ pre) ++ '$' :: '{' :: (name ++ '}' :: post) := by simp
        rw [e, hopen _ _ (by simp [hh, hpre])]
        simp only
        rw [hclose _ _ hname]
      rw [substN, hstep]
      simp only
      rw [hn]
      simp
  obtain ⟨n, hn⟩ := key s t h [] (by simp)
  exact environmentSubstitute_eq hn

/-- An environment with a self-referring variable. -/
def selfEnv : Env := fun n => if n = "A".toList then "${A}".toList else []

/-- **C13** The full property is false: with `A` set to `${A}`, a line mentioning `${A}` is never finished. -/
theorem C13_violation : environmentSubstitute selfEnv "${A}".toList = .error .diverge := by
  unfold environmentSubstitute
  rw [dif_neg]
  rintro ⟨n, r, h⟩
  induction n with
  | zero => cases h
  | succ n ih =>
    have hs : substStep selfEnv "${A}".toList = .ok (some "${A}".toList) := by decide
    rw [substN, hs] at h
    exact ih h

/-- The environment after the input lines `set A $$$` and `set F {A}{F}`. -/
def growEnv : Env := fun n => if n = ['A'] then ['$', '$', '$'] else if n = ['F'] then "{A}{F}".toList else []

/-- **C13** Even values without any `${` do not suffice: `${A}{F}` then grows for ever. -/
theorem C13_violation_set : (∀ n, ¬ HasRef (growEnv n)) ∧
    environmentSubstitute growEnv "${A}{F}".toList = .error .diverge := by
  constructor
  · intro n
    have hlen : growEnv n = ['$', '$', '$'] ∨ growEnv n = "{A}{F}".toList ∨ growEnv n = [] := by
      unfold growEnv; split
      · simp
      · split <;> simp
    rcases hlen with h | h | h <;> rw [h]
    · exact splitOpen_none (by decide)
    · exact splitOpen_none (by decide)
    · exact splitOpen_none (by decide)
  · unfold environmentSubstitute
    rw [dif_neg]
    have hopen : ∀ (m : Nat) (r : Str), splitOpen (List.replicate (m + 1) '$' ++ '{' :: r) =
        some (List.replicate m '$', r) := by
      intro m
      induction m with
      | zero => intro r; simp [splitOpen]
      | succ m ih =>
        intro r
        rw [List.replicate_succ, List.cons_append]
        have := ih r
        rw [List.replicate_succ, List.cons_append] at this ⊢
        rw [splitOpen, if_neg (by simp), this]
        simp
    have hF : ∀ m, substStep growEnv (List.replicate (m + 1) '$' ++ "{F}".toList) =
        .ok (some (List.replicate m '$' ++ "{A}{F}".toList)) := by
      intro m
      unfold substStep
      have : "{F}".toList = '{' :: ['F', '}'] := rfl
      rw [this, hopen]
      simp [splitClose, growEnv]
    have hA : ∀ m, substStep growEnv (List.replicate (m + 1) '$' ++ "{A}{F}".toList) =
        .ok (some (List.replicate (m + 3) '$' ++ "{F}".toList)) := by
      intro m
      unfold substStep
      have : "{A}{F}".toList = '{' :: ['A', '}', '{', 'F', '}'] := rfl
      rw [this, hopen]
      simp [splitClose, growEnv, List.replicate_succ']
    have key : ∀ n m, substN growEnv n (List.replicate (m + 2) '$' ++ "{F}".toList) = none ∧
        substN growEnv n (List.replicate (m + 1) '$' ++ "{A}{F}".toList) = none := by
      intro n
      induction n with
      | zero => intro m; exact ⟨rfl, rfl⟩
      | succ n ih =>
        intro m
        constructor
        · rw [substN, hF (m + 1)]; exact (ih m).2
        · rw [substN, hA m]; exact (ih (m + 1)).1
    rintro ⟨n, r, h⟩
    have := (key n 0).2
    have e : List.replicate (0 + 1) '$' ++ "{A}{F}".toList = "${A}{F}".toList := by decide
    rw [e, h] at this
    cases this

/-- The hypotheses are met: two references in a line. -/
example : environmentSubstitute (fun n => if n = "X".toList then "12".toList else []) "a ${X}b${Y}c".toList =
    .ok "a 12bc".toList := by
  apply C13_result_partial
  · intro n; split <;> decide
  · exact Replaced.ref "a ".toList "X".toList "b${Y}c".toList "bc".toList (by decide) (by decide)
      (Replaced.ref ['b'] ['Y'] ['c'] ['c'] (by decide) (by decide) (Replaced.plain _ (by decide)))

/-- **C14** (partial: fields without line feeds). Every other process sees the identical list. The full statement,
for every list the reader can produce, is false (`C14_violation`). -/
theorem C14_broadcast_partial (input : List (Str × Str)) (h : ∀ p ∈ input, '\n' ∉ p.1 ∧ '\n' ∉ p.2) :
    received input = input := by
  have hline : ∀ (a r : Str), '\n' ∉ a → getline (a ++ '\n' :: r) = (a, r) := by
    intro a r ha
    unfold getline
    have hall : ∀ x ∈ a, (decide (x ≠ '\n')) = true := by
      intro x hx; simp; rintro rfl; exact ha hx
    rw [List.takeWhile_append_of_pos hall, List.dropWhile_append_of_pos hall]
    simp
  unfold received
  induction input with
  | nil => rfl
  | cons p ps ih =>
    have hp := h p (by simp)
    have e : serialize (p :: ps) = p.1 ++ '\n' :: (p.2 ++ '\n' :: serialize ps) := by simp [serialize]
    rw [e, List.length_cons, deserialize]
    rw [hline _ _ hp.1]
    simp only
    rw [hline _ _ hp.2]
    simp only
    rw [ih (fun q hq => h q (by simp [hq]))]

/-- **C14** The full property is false: with a line feed in an environment variable the head process reads one
command whose parameters contain it, and the other processes see something else. -/
theorem C14_violation :
    let env : Env := fun n => if n = "V".toList then "1\n2".toList else []
    let ctx : Ctx := ⟨fun _ => some "cmd ${V}".toList, environmentSubstitute, fun _ => none⟩
    ∃ env' cmds, readFile ctx 1 [[]] [] (env, []) = .ok (env', cmds) ∧ received cmds ≠ cmds := by
  intro env ctx
  refine ⟨env, [("cmd".toList, " 1\n2".toList)], ?_, by decide⟩
  have hsub : environmentSubstitute env "cmd ${V}".toList = .ok "cmd 1\n2".toList := by
    apply environmentSubstitute_eq (n := 2)
    decide
  have hl : readLine (environmentSubstitute env) [] ["cmd ${V}".toList] = .ok ("cmd 1\n2".toList, []) := by
    rw [readLine]
    have e1 : trim (stripComment "cmd ${V}".toList) = "cmd ${V}".toList := by decide
    rw [e1, hsub]
    decide
  have hsplit : splitLines "cmd ${V}".toList = ["cmd ${V}".toList] := by decide
  rw [readFile]
  simp only [ctx, hsplit, List.length_cons, List.length_nil]
  rw [fileLoop]
  simp only [hl]
  have : processLine ⟨fun _ => some "cmd ${V}".toList, environmentSubstitute, fun _ => none⟩
      (fun p st => if ([[]] : List Str).any (ieq · p) then .error (.cyclic p) else
        readFile ⟨fun _ => some "cmd ${V}".toList, environmentSubstitute, fun _ => none⟩ 0 (p :: [[]]) p st)
      (env, []) "cmd 1\n2".toList = .ok (env, [("cmd".toList, " 1\n2".toList)]) := by
    unfold processLine
    have e1 : firstWord "cmd 1\n2".toList = "cmd".toList := by decide
    have e2 : ieq "cmd".toList "set".toList = false := by decide
    have e3 : ieq "cmd".toList "include".toList = false := by decide
    have e4 : "cmd 1\n2".toList.drop "cmd".toList.length = " 1\n2".toList := by decide
    have e5 : "cmd 1\n2".toList ≠ [] := by decide
    simp only [e1, e2, e3, e4, e5, if_false, Bool.false_eq_true, List.nil_append]
  rw [this]
  rfl

example : received [("lattice".toList, " 1 2 3".toList), ("ion".toList, []), ([], " x".toList)] =
    [("lattice".toList, " 1 2 3".toList), ("ion".toList, []), ([], " x".toList)] := by decide

/-- **C15** A logical line is made of a non-empty block of consecutive physical lines, starting where the last
one ended; each contributes its text before `#`, trimmed, with variables substituted; all but the last of them
end in a backslash, the last one does not (unless the file ended); the logical line is these pieces without the
backslashes, joined by blanks. If reading fails, substitution failed on one of the physical lines. -/
theorem C15_line (subst : Str → Res Str) (ls : List Str) (hne : ls ≠ []) :
    (∀ line rest, readLine subst [] ls = .ok (line, rest) →
      ∃ block qs, block ≠ [] ∧ ls = block ++ rest ∧ List.Forall₂ (Processed subst) block qs ∧
        (∀ q ∈ qs.dropLast, q.getLast? = some '\\') ∧
        (rest ≠ [] → ∀ q, qs.getLast? = some q → q.getLast? ≠ some '\\') ∧
        line = joinBlank (qs.map (fun q => if q.getLast? = some '\\' then q.dropLast else q))) ∧
    (∀ e, readLine subst [] ls = .error e →
      ∃ l ∈ ls, ∃ u t, Uncommented l u ∧ Trimmed u t ∧ subst t = .error e) := by
  constructor
  · intro line rest h
    obtain ⟨block, qs, b1, b2, b3, b4, b5, b6⟩ := readLine_spec subst ls [] line rest h hne
    exact ⟨block, qs, b1, b2, b3, b4, b5, by rw [b6, joinFrom_nil]⟩
  · have gen : ∀ (ls : List Str) (acc : Str) (e : Err), readLine subst acc ls = .error e →
        ∃ l ∈ ls, ∃ u t, Uncommented l u ∧ Trimmed u t ∧ subst t = .error e := by
      intro ls
      induction ls with
      | nil => intro acc e h; cases h
      | cons l ls ih =>
        intro acc e h
        unfold readLine at h
        split at h
        · rename_i e' he
          cases h
          exact ⟨l, by simp, _, _, stripComment_spec l, trim_spec _, he⟩
        · dsimp only at h
          split at h
          · obtain ⟨l', hl', h'⟩ := ih _ _ h
            exact ⟨l', by simp [hl'], h'⟩
          · cases h
    exact gen ls []

/-- Reading logical lines until the end of the file, with a fixed substitution. -/
def readAll (subst : Str → Res Str) : Nat → List Str → Res (List Str)
  | _, [] => .ok []
  | 0, _ :: _ => .error .diverge
  | n + 1, l :: ls =>
    match readLine subst [] (l :: ls) with
    | .error e => .error e
    | .ok (line, rest) => (readAll subst n rest).map (line :: ·)

/-- **C15** (whole file). Reading until the end of the file cuts the physical lines into consecutive blocks,
one per logical line: every physical line is consumed exactly once, in order. -/
theorem C15_file (subst : Str → Res Str) (hs : ∀ t, ∃ q, subst t = .ok q) (ls : List Str) :
    ∃ lines, readAll subst ls.length ls = .ok lines ∧ ∃ blocks : List (List Str), blocks.flatten = ls ∧
      List.Forall₂ (fun line block => ∃ rest, block ≠ [] ∧ readLine subst [] (block ++ rest) = .ok (line, rest))
        lines blocks := by
  have gen : ∀ (n : Nat) (ls : List Str), ls.length ≤ n → ∃ lines, readAll subst n ls = .ok lines ∧
      ∃ blocks : List (List Str), blocks.flatten = ls ∧
      List.Forall₂ (fun line block => ∃ rest, block ≠ [] ∧ readLine subst [] (block ++ rest) = .ok (line, rest))
        lines blocks := by
    intro n
    induction n with
    | zero =>
      intro ls h
      have : ls = [] := List.length_eq_zero_iff.mp (by omega)
      subst this
      exact ⟨[], rfl, [], rfl, List.Forall₂.nil⟩
    | succ n ih =>
      intro ls h
      cases ls with
      | nil => exact ⟨[], rfl, [], rfl, List.Forall₂.nil⟩
      | cons l ls =>
        rcases hr : readLine subst [] (l :: ls) with e | ⟨line, rest⟩
        · obtain ⟨_, _, _, t, _, _, ht⟩ := (C15_line subst (l :: ls) (by simp)).2 e hr
          obtain ⟨q, hq⟩ := hs t
          rw [hq] at ht; cases ht
        · have hlen := (readLine_length _ _ _ _ _ hr).2 (by simp)
          obtain ⟨lines, h1, blocks, h2, h3⟩ := ih rest (by simp only [List.length_cons] at hlen h; omega)
          obtain ⟨block, qs, b1, b2, _⟩ := (C15_line subst (l :: ls) (by simp)).1 line rest hr
          refine ⟨line :: lines, by rw [readAll, hr]; simp only; rw [h1]; rfl, block :: blocks, ?_, ?_⟩
          · rw [List.flatten_cons, h2, b2]
          · refine List.Forall₂.cons ⟨rest, b1, ?_⟩ h3
            rw [← b2]; exact hr
  exact gen ls.length ls (le_refl _)

example : readLine .ok [] ["  kpoint 0 0 \\  # first".toList, "\t 0 1 #w".toList, "next".toList] =
    .ok ("kpoint 0 0  0 1".toList, ["next".toList]) := by decide

/-- **C16** (termination). Let the names that can be opened be among finitely many `names`, and let substitution
end on every line (C13). Then reading any file ends: include nesting of `names.length + 2` is never exceeded,
and allowing more of it does not change the result. -/
theorem C16_terminates (ctx : Ctx) (hsub : ∀ env s, ctx.subst env s ≠ .error .diverge) (names : List Str)
    (hn : ∀ n, ctx.fs n ≠ none → n ∈ names) (name : Str) (st : RState) :
    readFile ctx (names.length + 2) [name] name st ≠ .error .diverge ∧
    readFile ctx (names.length + 2) [name] name st ≠ .error (.subst .diverge) ∧
    ∀ d, readFile ctx (names.length + 2 + d) [name] name st = readFile ctx (names.length + 2) [name] name st := by
  have h := readFile_nodiverge ctx hsub names hn (names.length + 2) [name] name st (by
    have : (avail names [name]).length ≤ names.length := List.length_filter_le _ _
    omega)
  exact ⟨h.1, h.2, readFile_fuel ctx _ _ _ _ h.1⟩

/-- **C16** (expansion). When reading succeeds, the commands are those of the textual expansion: the text with
every include line replaced by the contents of the file it names, in order. -/
theorem C16_expansion (ctx : Ctx) (fuel : Nat) (name text : Str) (hf : ctx.fs name = some text) (env env' : Env)
    (cmds : List (Str × Str)) (h : readFile ctx fuel [name] name (env, []) = .ok (env', cmds)) :
    Expansion ctx env [splitLines text] env' cmds := by
  obtain ⟨text', new, h1, h2, h3⟩ := readFile_expansion ctx fuel [name] name _ _ h
  rw [hf] at h1
  cases h1
  have := h3 [] env' [] (Expansion.done env')
  rw [List.append_nil] at this
  simp only [List.nil_append] at h2
  rw [h2]; exact this

/-- **C16** (cycles). When a cycle at file `g` is reported, some file `f` includes `g` and is itself reached by
includes from a file with the name `g` up to case. -/
theorem C16_cycle (ctx : Ctx) (fuel : Nat) (name g : Str) (st : RState)
    (h : readFile ctx fuel [name] name st = .error (.cyclic g)) :
    ∃ f g', Includes ctx f g ∧ Relation.ReflTransGen (Includes ctx) g' f ∧ ieq g' g = true :=
  readFile_cyclic ctx g fuel [name] name st
    (fun x hx => by rw [List.mem_singleton] at hx; subst hx; exact Relation.ReflTransGen.refl) h

/-- Without variables, `a` including `b` including `c` is expanded in place; a cycle is reported; and a file
including another one whose name differs only in case is wrongly reported as a cycle. -/
def exFs (n : Str) : Option Str :=
  if n = "a".toList then some "x 1\ninclude b\ny".toList
  else if n = "b".toList then some "z # comment\n".toList
  else if n = "p".toList then some "include q".toList
  else if n = "q".toList then some "include p".toList
  else if n = "r".toList then some "include R".toList
  else if n = "R".toList then some "z".toList
  else none

def exCtx : Ctx := ⟨exFs, fun _ s => .ok s, fun _ => none⟩

example : (readFile exCtx 8 ["a".toList] "a".toList (fun _ => [], [])).map (·.2) =
    .ok [("x".toList, " 1".toList), ("z".toList, []), ("y".toList, [])] := by decide
example : (readFile exCtx 8 ["p".toList] "p".toList (fun _ => [], [])).map (·.2) =
    .error (.cyclic "p".toList) := by decide

/-- **C16** Names are compared without regard to case, so a chain of two different files is refused. -/
theorem C16_case_collision : (readFile exCtx 8 ["r".toList] "r".toList (fun _ => [], [])).map (·.2) =
    .error (.cyclic "R".toList) ∧ exFs "R".toList = some "z".toList := by decide

end Jdftx.Input
