import Verif.Model.InputText
import Verif.Spec.InputText
import Mathlib.Data.List.TakeDrop
import Mathlib.Data.List.TakeWhile
import Mathlib.Data.List.Infix
import Mathlib.Tactic.Linarith
import Mathlib.Logic.Relation

namespace Jdftx.Input
open Jdftx.Spec

/-! ### Substitution -/

theorem splitOpen_none : ∀ {s : Str}, splitOpen s = none → ¬ HasRef s
  | [], _ => by rintro ⟨a, b, h⟩; simp at h
  | [c], _ => by
    rintro ⟨a, b, h⟩
    have := congrArg List.length h
    simp at this
    omega
  | c :: d :: cs, h => by
    unfold splitOpen at h
    split at h
    · cases h
    · rename_i hne
      rw [Option.map_eq_none_iff] at h
      rintro ⟨a, b, hab⟩
      cases a with
      | nil =>
        simp only [List.nil_append, List.cons.injEq] at hab
        exact hne ⟨hab.1, hab.2.1⟩
      | cons x xs =>
        simp only [List.cons_append, List.cons.injEq] at hab
        exact splitOpen_none h ⟨xs, b, hab.2⟩

theorem splitOpen_some : ∀ {s pre rest : Str}, splitOpen s = some (pre, rest) →
    s = pre ++ '$' :: '{' :: rest ∧ ¬ HasRef pre ∧ ¬ HasRef (pre ++ ['$'])
  | [], _, _, h => by simp [splitOpen] at h
  | [c], _, _, h => by simp [splitOpen] at h
  | c :: d :: cs, pre, rest, h => by
    unfold splitOpen at h
    split at h
    · rename_i hc
      simp only [Option.some.injEq, Prod.mk.injEq] at h
      obtain ⟨rfl, rfl⟩ := h
      refine ⟨by rw [hc.1, hc.2]; rfl, ?_, ?_⟩
      · rintro ⟨a, b, h⟩; simp at h
      · rintro ⟨a, b, h⟩
        have := congrArg List.length h
        simp at this
        omega
    · rename_i hne
      rcases hr : splitOpen (d :: cs) with _ | ⟨p, r⟩
      · rw [hr] at h; cases h
      · rw [hr] at h
        simp only [Option.map_some, Option.some.injEq, Prod.mk.injEq] at h
        obtain ⟨rfl, rfl⟩ := h
        obtain ⟨h1, h2, h3⟩ := splitOpen_some hr
        refine ⟨by rw [h1]; rfl, ?_, ?_⟩
        · rintro ⟨a, b, hab⟩
          cases a with
          | nil =>
            simp only [List.nil_append, List.cons.injEq] at hab
            obtain ⟨rfl, rfl⟩ := hab
            simp only [List.cons_append, List.cons.injEq] at h1
            exact hne ⟨rfl, h1.1⟩
          | cons x xs =>
            simp only [List.cons_append, List.cons.injEq] at hab
            exact h2 ⟨xs, b, hab.2⟩
        · rintro ⟨a, b, hab⟩
          cases a with
          | nil =>
            simp only [List.nil_append, List.cons_append, List.cons.injEq] at hab
            obtain ⟨rfl, hab⟩ := hab
            cases p with
            | nil => simp at hab
            | cons y ys =>
              simp only [List.cons_append, List.cons.injEq] at hab h1
              exact hne ⟨rfl, h1.1.trans hab.1⟩
          | cons x xs =>
            simp only [List.cons_append, List.cons.injEq] at hab
            exact h3 ⟨xs, b, hab.2⟩

theorem splitClose_none : ∀ {s : Str}, splitClose s = none → '}' ∉ s
  | [], _ => by simp
  | c :: cs, h => by
    unfold splitClose at h
    split at h
    · cases h
    · rename_i hne
      rw [Option.map_eq_none_iff] at h
      have := splitClose_none h
      simp only [List.mem_cons, not_or]
      exact ⟨fun e => hne e.symm, this⟩

theorem splitClose_some : ∀ {s name post : Str}, splitClose s = some (name, post) →
    s = name ++ '}' :: post ∧ '}' ∉ name
  | [], _, _, h => by simp [splitClose] at h
  | c :: cs, name, post, h => by
    unfold splitClose at h
    split at h
    · rename_i hc
      simp only [Option.some.injEq, Prod.mk.injEq] at h
      obtain ⟨rfl, rfl⟩ := h
      rw [hc]; simp
    · rename_i hne
      rcases hr : splitClose cs with _ | ⟨p, r⟩
      · rw [hr] at h; cases h
      · rw [hr] at h
        simp only [Option.map_some, Option.some.injEq, Prod.mk.injEq] at h
        obtain ⟨rfl, rfl⟩ := h
        obtain ⟨h1, h2⟩ := splitClose_some hr
        refine ⟨by rw [h1]; rfl, ?_⟩
        simp only [List.mem_cons, not_or]
        exact ⟨fun e => hne e.symm, h2⟩

theorem substN_mono (env : Env) : ∀ (n : Nat) (s : Str) (r : Res Str), substN env n s = some r →
    ∀ m, n ≤ m → substN env m s = some r
  | 0, s, r, h, m, _ => by cases h
  | n + 1, s, r, h, m, hm => by
    obtain ⟨m, rfl⟩ : ∃ k, m = k + 1 := ⟨m - 1, by omega⟩
    unfold substN at h ⊢
    split at h
    · exact h
    · exact h
    · exact substN_mono env n _ r h m (by omega)

theorem environmentSubstitute_eq {env : Env} {s : Str} {r : Res Str} {n : Nat} (h : substN env n s = some r) :
    environmentSubstitute env s = r := by
  unfold environmentSubstitute
  have hex : ∃ n r, substN env n s = some r := ⟨n, r, h⟩
  rw [dif_pos hex]
  have h' := hex.choose_spec.choose_spec
  have h1 := substN_mono env _ _ _ h' _ (le_max_left hex.choose n)
  have h2 := substN_mono env _ _ _ h _ (le_max_right hex.choose n)
  rw [h1] at h2
  exact Option.some.inj h2

/-! ### Trimming and lines -/

theorem isWs_white (c : Char) : isWs c = true ↔ White c := by
  unfold isWs White
  simp [or_assoc]

theorem word_spec (s : Str) : Word s (firstWord s) (s.drop (firstWord s).length) := by
  unfold firstWord
  have h : s = s.takeWhile (fun c => !isWs c) ++ s.dropWhile (fun c => !isWs c) := List.takeWhile_append_dropWhile.symm
  have hd : s.drop (s.takeWhile (fun c => !isWs c)).length = s.dropWhile (fun c => !isWs c) := by
    conv_lhs => rw [h]
    rw [List.takeWhile_append_dropWhile]
    conv_lhs => arg 2; rw [h]
    exact List.drop_left
  rw [hd]
  refine ⟨h, ?_, ?_⟩
  · intro c hc hw
    have := List.mem_takeWhile_imp hc
    rw [(isWs_white c).2 hw] at this
    cases this
  · intro c hc
    have := List.head?_dropWhile_not (fun c => !isWs c) s
    rw [hc] at this
    simp only at this
    exact (isWs_white c).1 (by simpa using this)

theorem trimmed_white {s t : Str} (h : Trimmed s t) (hs : ∀ c ∈ s, ¬ White c) : t = s := by
  obtain ⟨a, b, h1, h2, h3, _, _⟩ := h
  have ha : a = [] := List.eq_nil_iff_forall_not_mem.2 (fun c hc => hs c (by rw [h1]; simp [hc]) (h2 c hc))
  have hb : b = [] := List.eq_nil_iff_forall_not_mem.2 (fun c hc => hs c (by rw [h1]; simp [hc]) (h3 c hc))
  rw [h1, ha, hb]; simp

theorem assigned_spec (env : Env) (name value : Str) : Assigned env name value (setenv env name value) := by
  unfold setenv Assigned
  constructor
  · intro h; rw [if_pos h]
  · intro h; rw [if_neg h]
    exact ⟨Function.update_self .., fun n hn => Function.update_of_ne hn ..⟩

theorem trim_spec (s : Str) : Trimmed s (trim s) := by
  unfold trim
  set m := (s.reverse.dropWhile isWs).reverse with hm
  have h1 : s = m ++ (s.reverse.takeWhile isWs).reverse := by
    rw [hm, ← List.reverse_append, List.takeWhile_append_dropWhile, List.reverse_reverse]
  have h2 : m = m.takeWhile isWs ++ m.dropWhile isWs := List.takeWhile_append_dropWhile.symm
  refine ⟨m.takeWhile isWs, (s.reverse.takeWhile isWs).reverse, ?_, ?_, ?_, ?_, ?_⟩
  · rw [← h2]; exact h1
  · intro c hc; exact (isWs_white c).1 (List.mem_takeWhile_imp hc)
  · intro c hc; exact (isWs_white c).1 (List.mem_takeWhile_imp (List.mem_reverse.mp hc))
  · intro c hc hw
    replace hw := (isWs_white c).2 hw
    have := List.head?_dropWhile_not isWs m
    rw [hc] at this
    simp only at this
    rw [hw] at this; cases this
  · intro c hc hw
    replace hw := (isWs_white c).2 hw
    have hne : m.dropWhile isWs ≠ [] := by intro e; rw [e] at hc; cases hc
    have hlast : m.getLast? = some c := by
      rw [h2, List.getLast?_append_of_ne_nil _ hne]; exact hc
    rw [hm, List.getLast?_reverse] at hlast
    have := List.head?_dropWhile_not isWs s.reverse
    rw [hlast] at this
    simp only at this
    rw [hw] at this; cases this

theorem assigned_trim (env : Env) (p value : Str) : Assigned env (firstWord p) value (setenv env (trim (firstWord p)) value) := by
  rw [trimmed_white (trim_spec (firstWord p)) (word_spec p).2.1]
  exact assigned_spec _ _ _

theorem stripComment_spec (s : Str) : Uncommented s (stripComment s) := by
  unfold stripComment
  constructor
  · intro h
    have := List.mem_takeWhile_imp h
    simp at this
  · rcases hd : s.dropWhile (fun x => decide (x ≠ '#')) with _ | ⟨c, cs⟩
    · left
      have := List.takeWhile_append_dropWhile (p := fun x => decide (x ≠ '#')) (l := s)
      rw [hd, List.append_nil] at this
      exact this.symm
    · right
      have h1 := List.takeWhile_append_dropWhile (p := fun x => decide (x ≠ '#')) (l := s)
      have h2 := List.head?_dropWhile_not (fun x => decide (x ≠ '#')) s
      rw [hd] at h1 h2
      simp only [List.head?_cons, ne_eq, decide_not, Bool.not_eq_eq_eq_not, Bool.not_false, decide_eq_true_eq] at h2
      exact ⟨cs, by rw [h2] at h1; exact h1.symm⟩

/-- Rest of the lines is a proper suffix. -/
theorem readLine_length (subst : Str → Res Str) : ∀ (ls : List Str) (line r : Str) (rest : List Str),
    readLine subst line ls = .ok (r, rest) → rest.length ≤ ls.length ∧ (ls ≠ [] → rest.length < ls.length)
  | [], line, r, rest, h => by cases h; simp
  | l :: ls, line, r, rest, h => by
    unfold readLine at h
    split at h
    · cases h
    · dsimp only at h
      split at h
      · have := (readLine_length subst ls _ r rest h).1
        simp only [List.length_cons]
        exact ⟨by omega, fun _ => by omega⟩
      · cases h
        simp

/-- Joining with the line buffer. -/
def joinFrom (line : Str) : List Str → Str
  | [] => line
  | p :: ps => joinFrom (line ++ (if line = [] then [] else [' ']) ++ p) ps

theorem joinFrom_ne : ∀ (ps : List Str) (line : Str), line ≠ [] →
    joinFrom line ps = [' '].intercalate (line :: ps)
  | [], line, _ => by simp [joinFrom, List.intercalate]
  | p :: ps, line, h => by
    unfold joinFrom
    rw [if_neg h]
    rw [joinFrom_ne ps _ (by simp)]
    cases ps with
    | nil => simp [List.intercalate]
    | cons q qs => simp [List.intercalate, List.intersperse]

theorem joinFrom_nil : ∀ (ps : List Str), joinFrom [] ps = joinBlank ps
  | [] => rfl
  | p :: ps => by
    unfold joinFrom
    by_cases hp : p = []
    · subst hp
      rw [if_pos rfl]
      simp only [List.append_nil]
      rw [joinFrom_nil ps]
      simp [joinBlank]
    · rw [if_pos rfl]
      simp only [List.append_nil, List.nil_append]
      rw [joinFrom_ne ps p hp]
      simp [joinBlank, hp]

theorem readLine_spec (subst : Str → Res Str) : ∀ (ls : List Str) (line r : Str) (rest : List Str),
    readLine subst line ls = .ok (r, rest) → ls ≠ [] →
    ∃ block qs, block ≠ [] ∧ ls = block ++ rest ∧ List.Forall₂ (Processed subst) block qs ∧
      (∀ q ∈ qs.dropLast, q.getLast? = some '\\') ∧
      (rest ≠ [] → ∀ q, qs.getLast? = some q → q.getLast? ≠ some '\\') ∧
      r = joinFrom line (qs.map (fun q => if q.getLast? = some '\\' then q.dropLast else q))
  | [], _, _, _, _, hne => absurd rfl hne
  | l :: ls, line, r, rest, h, _ => by
    unfold readLine at h
    rcases hs : subst (trim (stripComment l)) with e | q
    · rw [hs] at h; cases h
    · rw [hs] at h
      dsimp only at h
      have hp : Processed subst l q := ⟨_, _, stripComment_spec l, trim_spec _, hs⟩
      by_cases hc : q.getLast? = some '\\'
      · rw [if_pos hc] at h
        cases ls with
        | nil =>
          cases h
          refine ⟨[l], [q], by simp, by simp, by simpa using hp, by simp, by simp, ?_⟩
          simp [hc, joinFrom]
        | cons l' ls' =>
          obtain ⟨block, qs, b1, b2, b3, b4, b5, b6⟩ := readLine_spec subst (l' :: ls') _ r rest h (by simp)
          have hqs : qs ≠ [] := by
            intro e; subst e
            cases b3; exact b1 rfl
          refine ⟨l :: block, q :: qs, by simp, by rw [b2]; rfl, List.Forall₂.cons hp b3, ?_, ?_, ?_⟩
          · rw [List.dropLast_cons_of_ne_nil hqs]
            intro x hx
            rcases List.mem_cons.mp hx with rfl | hx
            · exact hc
            · exact b4 x hx
          · intro hr x hx
            rw [List.getLast?_cons_of_ne_nil hqs] at hx
            exact b5 hr x hx
          · rw [b6, List.map_cons, if_pos hc]; rfl
      · rw [if_neg hc] at h
        cases h
        refine ⟨[l], [q], by simp, by simp, by simpa using hp, by simp, ?_, ?_⟩
        · intro _ x hx
          simp at hx; subst hx; exact hc
        · simp [hc, joinFrom]

/-! ### Files -/

theorem fileLoop_nodiverge (ctx : Ctx) (hsub : ∀ env s, ctx.subst env s ≠ .error .diverge)
    (inc : Str → RState → Except ReadErr RState)
    (hinc : ∀ p st, inc p st ≠ .error .diverge ∧ inc p st ≠ .error (.subst .diverge)) :
    ∀ (n : Nat) (st : RState) (ls : List Str), ls.length ≤ n →
    fileLoop ctx inc n st ls ≠ .error .diverge ∧ fileLoop ctx inc n st ls ≠ .error (.subst .diverge)
  | n, st, [], _ => by cases n <;> simp [fileLoop]
  | 0, st, l :: ls, h => by simp at h
  | n + 1, st, l :: ls, h => by
    unfold fileLoop
    rcases hr : readLine (ctx.subst st.1) [] (l :: ls) with e | ⟨line, rest⟩
    · simp only
      have hne : e ≠ .diverge := by
        intro he
        subst he
        have : ∀ (ls : List Str) (line : Str), readLine (ctx.subst st.1) line ls ≠ .error .diverge := by
          intro ls
          induction ls with
          | nil => intro line h; cases h
          | cons l ls ih =>
            intro line h
            unfold readLine at h
            split at h
            · rename_i e he
              cases h
              exact hsub _ _ he
            · dsimp only at h
              split at h
              · exact ih _ h
              · cases h
        exact this _ _ hr
      constructor
      · intro h; cases h
      · intro h; cases h; exact hne rfl
    · simp only
      have hlen := (readLine_length _ _ _ _ _ hr).2 (by simp)
      rcases hp : processLine ctx inc st line with e | st'
      · simp only
        have : e ≠ .diverge ∧ e ≠ .subst .diverge := by
          unfold processLine at hp
          split at hp
          · cases hp
          · dsimp only at hp
            split at hp
            · cases hp
            · split at hp
              · split at hp
                · cases hp; simp
                · have := hinc (trim (line.drop (firstWord line).length)) st
                  rw [hp] at this
                  exact ⟨fun h => this.1 (by rw [h]), fun h => this.2 (by rw [h])⟩
              · split at hp
                · split at hp
                  · cases hp
                  · cases hp; simp
                · cases hp
        exact ⟨fun h => this.1 (by cases h; rfl), fun h => this.2 (by cases h; rfl)⟩
      · simp only
        exact fileLoop_nodiverge ctx hsub inc hinc n st' rest (by simp only [List.length_cons] at hlen h; omega)

theorem ieq_refl (a : Str) : ieq a a = true := by simp [ieq]

/-- Names that can be opened and are not open. -/
def avail (names stack : List Str) : List Str := names.filter (fun n => n ∉ stack)

theorem avail_lt {names stack : List Str} {p : Str} (hp : p ∈ names) (hs : p ∉ stack) :
    (avail names (p :: stack)).length < (avail names stack).length := by
  unfold avail
  induction names with
  | nil => simp at hp
  | cons x xs ih =>
    have hle : (xs.filter (fun n => n ∉ p :: stack)).length ≤ (xs.filter (fun n => n ∉ stack)).length := by
      apply List.Sublist.length_le
      apply List.monotone_filter_right
      intro a ha
      simp only [List.mem_cons, not_or, decide_eq_true_eq] at ha ⊢
      exact ha.2
    rw [List.filter_cons, List.filter_cons]
    by_cases hx : x = p
    · subst hx
      simp only [List.mem_cons, true_or, not_true_eq_false, decide_false, Bool.false_eq_true, if_false, hs,
        not_false_eq_true, decide_true, if_true, List.length_cons]
      simp only [List.mem_cons] at hle
      omega
    · have hp' : p ∈ xs := by
        rcases List.mem_cons.mp hp with h | h
        · exact absurd h.symm hx
        · exact h
      have := ih hp'
      by_cases hxs : x ∈ stack
      · simp [hxs] at this ⊢; exact this
      · simp only [List.mem_cons, hx, hxs, or_self, not_false_eq_true, decide_true, if_true, List.length_cons]
        simp only [List.mem_cons] at this
        omega

theorem readFile_nodiverge (ctx : Ctx) (hsub : ∀ env s, ctx.subst env s ≠ .error .diverge)
    (names : List Str) (hn : ∀ n, ctx.fs n ≠ none → n ∈ names) :
    ∀ (k : Nat) (stack : List Str) (name : Str) (st : RState), (avail names stack).length + 1 < k →
    readFile ctx k stack name st ≠ .error .diverge ∧ readFile ctx k stack name st ≠ .error (.subst .diverge)
  | 0, stack, name, st, h => by omega
  | k + 1, stack, name, st, h => by
    unfold readFile
    rcases hf : ctx.fs name with _ | text
    · simp
    · simp only
      apply fileLoop_nodiverge ctx hsub
      · intro p st
        split
        · simp
        · rename_i hcyc
          rcases hp : ctx.fs p with _ | t
          · cases k with
            | zero => omega
            | succ k => unfold readFile; rw [hp]; simp
          · have hps : p ∉ stack := by
              intro hm
              apply hcyc
              rw [List.any_eq_true]
              exact ⟨p, hm, ieq_refl p⟩
            have := avail_lt (hn p (by rw [hp]; simp)) hps
            exact readFile_nodiverge ctx hsub names hn k (p :: stack) p st (by omega)
      · exact le_refl _

theorem processLine_congr (ctx : Ctx) {inc1 inc2 : Str → RState → Except ReadErr RState}
    (h : ∀ p st, inc1 p st ≠ .error .diverge → inc2 p st = inc1 p st) (st : RState) (line : Str)
    (hd : processLine ctx inc1 st line ≠ .error .diverge) :
    processLine ctx inc2 st line = processLine ctx inc1 st line := by
  unfold processLine at hd ⊢
  by_cases h1 : line = []
  · simp only [h1, if_true]
  · simp only [h1, if_false] at hd ⊢
    by_cases h2 : ieq (firstWord line) "set".toList = true
    · simp only [h2, if_true]
    · simp only [h2] at hd ⊢
      by_cases h3 : ieq (firstWord line) "include".toList = true
      · simp only [h3, if_true] at hd ⊢
        by_cases h4 : trim (line.drop (firstWord line).length) = []
        · simp only [h4, if_true]
        · simp only [h4, if_false] at hd ⊢
          exact h _ _ (by simpa using hd)
      · simp only [h3, Bool.false_eq_true, if_false]

theorem fileLoop_congr (ctx : Ctx) {inc1 inc2 : Str → RState → Except ReadErr RState}
    (h : ∀ p st, inc1 p st ≠ .error .diverge → inc2 p st = inc1 p st) :
    ∀ (n : Nat) (st : RState) (ls : List Str), fileLoop ctx inc1 n st ls ≠ .error .diverge →
    fileLoop ctx inc2 n st ls = fileLoop ctx inc1 n st ls
  | n, st, [], _ => by cases n <;> rfl
  | 0, st, l :: ls, _ => rfl
  | n + 1, st, l :: ls, hd => by
    unfold fileLoop at hd ⊢
    rcases hr : readLine (ctx.subst st.1) [] (l :: ls) with e | ⟨line, rest⟩
    · rfl
    · rw [hr] at hd
      simp only at hd ⊢
      have hp : processLine ctx inc1 st line ≠ .error .diverge := by
        intro e; rw [e] at hd; exact hd rfl
      rw [processLine_congr ctx h st line hp]
      rcases hq : processLine ctx inc1 st line with e | st'
      · rfl
      · rw [hq] at hd
        exact fileLoop_congr ctx h n st' rest hd

theorem readFile_succ (ctx : Ctx) : ∀ (k : Nat) (stack : List Str) (name : Str) (st : RState),
    readFile ctx k stack name st ≠ .error .diverge →
    readFile ctx (k + 1) stack name st = readFile ctx k stack name st
  | 0, _, _, _, h => absurd rfl h
  | k + 1, stack, name, st, h => by
    rw [readFile] at h ⊢
    conv_rhs => rw [readFile]
    rcases hf : ctx.fs name with _ | text
    · rfl
    · rw [hf] at h
      simp only at h ⊢
      apply fileLoop_congr ctx _ _ _ _ h
      intro p st' hne
      split
      · rfl
      · rename_i hc
        rw [if_neg hc] at hne
        exact readFile_succ ctx k (p :: stack) p st' hne

theorem readFile_fuel (ctx : Ctx) (k : Nat) (stack : List Str) (name : Str) (st : RState)
    (h : readFile ctx k stack name st ≠ .error .diverge) : ∀ d,
    readFile ctx (k + d) stack name st = readFile ctx k stack name st
  | 0 => rfl
  | d + 1 => by
    have ih := readFile_fuel ctx k stack name st h d
    rw [← Nat.add_assoc, readFile_succ ctx (k + d) stack name st (by rw [ih]; exact h), ih]

/-- What `inc` must satisfy for the expansion theorem. -/
def IncOk (ctx : Ctx) (inc : Str → RState → Except ReadErr RState) : Prop :=
  ∀ p st st', inc p st = .ok st' → ∃ text new, ctx.fs p = some text ∧ st'.2 = st.2 ++ new ∧
    ∀ ts env' cs, Expansion ctx st'.1 ts env' cs → Expansion ctx st.1 (splitLines text :: ts) env' (new ++ cs)

theorem fileLoop_expansion (ctx : Ctx) (inc : Str → RState → Except ReadErr RState) (hinc : IncOk ctx inc) :
    ∀ (n : Nat) (st st' : RState) (ls : List Str), fileLoop ctx inc n st ls = .ok st' →
    ∃ new, st'.2 = st.2 ++ new ∧
      ∀ ts env' cs, Expansion ctx st'.1 ts env' cs → Expansion ctx st.1 (ls :: ts) env' (new ++ cs)
  | n, st, st', [], h => by
    have : st' = st := by cases n <;> (cases h; rfl)
    subst this
    exact ⟨[], by simp, fun ts env' cs h => Expansion.eof _ _ _ _ h⟩
  | 0, st, st', l :: ls, h => by cases h
  | n + 1, st, st', l :: ls, h => by
    unfold fileLoop at h
    rcases hr : readLine (ctx.subst st.1) [] (l :: ls) with e | ⟨line, rest⟩
    · rw [hr] at h; cases h
    · rw [hr] at h
      simp only at h
      rcases hp : processLine ctx inc st line with e | st1
      · rw [hp] at h; cases h
      · rw [hp] at h
        obtain ⟨new, h1, h2⟩ := fileLoop_expansion ctx inc hinc n st1 st' rest h
        unfold processLine at hp
        by_cases hl : line = []
        · rw [if_pos hl] at hp
          cases hp
          subst hl
          exact ⟨new, h1, fun ts env' cs he => Expansion.blank _ _ rest _ _ _ (by simp) hr (h2 ts env' cs he)⟩
        · rw [if_neg hl] at hp
          dsimp only at hp
          by_cases hset : ieq (firstWord line) "set".toList = true
          · rw [if_pos hset] at hp
            cases hp
            exact ⟨new, h1, fun ts env' cs he =>
              Expansion.set _ _ line rest _ _ _ _ _ _ _ _ _ _ (by simp) hr hl (word_spec line) hset (trim_spec _) (word_spec _) (trim_spec _)
                (assigned_trim _ _ _) (h2 ts env' cs he)⟩
          · rw [if_neg hset] at hp
            by_cases hincl : ieq (firstWord line) "include".toList = true
            · rw [if_pos hincl] at hp
              split at hp
              · cases hp
              · obtain ⟨text, new1, e1, e2, e3⟩ := hinc _ _ _ hp
                refine ⟨new1 ++ new, by rw [h1, e2, List.append_assoc], fun ts env' cs he => ?_⟩
                rw [List.append_assoc]
                exact Expansion.incl _ _ line rest _ _ _ text _ _ _ (by simp) hr hl (word_spec line) hincl (trim_spec _) e1
                  (e3 _ _ _ (h2 ts env' cs he))
            · rw [if_neg hincl] at hp
              rcases hd : ctx.depr (firstWord line) with _ | f
              · rw [hd] at hp
                cases hp
                refine ⟨(firstWord line, line.drop (firstWord line).length) :: new, by rw [h1]; simp, ?_⟩
                intro ts env' cs he
                exact Expansion.command _ _ line rest _ _ _ _ _ _ (by simp) hr hl (word_spec line) hset hincl (by rw [hd])
                  (h2 ts env' cs he)
              · rw [hd] at hp
                simp only at hp
                rcases hf : f (line.drop (firstWord line).length ++ [' ']) with _ | r
                · rw [hf] at hp; cases hp
                · rw [hf] at hp
                  cases hp
                  refine ⟨r :: new, by rw [h1]; simp, ?_⟩
                  intro ts env' cs he
                  exact Expansion.command _ _ line rest _ _ _ _ _ _ (by simp) hr hl (word_spec line) hset hincl (by rw [hd]; exact hf)
                    (h2 ts env' cs he)

theorem readFile_expansion (ctx : Ctx) : ∀ (k : Nat) (stack : List Str),
    IncOk ctx (fun p st => readFile ctx k stack p st)
  | 0, stack => by intro p st st' h; cases h
  | k + 1, stack => by
    intro p st st' h
    simp only [readFile] at h
    rcases hf : ctx.fs p with _ | text
    · rw [hf] at h; cases h
    · rw [hf] at h
      simp only at h
      obtain ⟨new, h1, h2⟩ := fileLoop_expansion ctx _ (by
        intro q st1 st2 hq
        dsimp only at hq
        split at hq
        · cases hq
        · exact readFile_expansion ctx k (q :: stack) q st1 st2 hq) _ _ _ _ h
      exact ⟨text, new, rfl, h1, h2⟩

/-! ### A reported cycle is one -/

theorem fileLoop_cyclic (ctx : Ctx) (inc : Str → RState → Except ReadErr RState) (bad : Str) (P : Str → Prop)
    (hinc : ∀ p st, inc p st = .error (.cyclic bad) → P p) :
    ∀ (n : Nat) (st : RState) (ls : List Str), fileLoop ctx inc n st ls = .error (.cyclic bad) →
    ∃ pre suf env line rest, ls = pre ++ suf ∧ readLine (ctx.subst env) [] suf = .ok (line, rest) ∧
      ieq (firstWord line) "include".toList = true ∧ P (trim (line.drop (firstWord line).length))
  | n, st, [], h => by cases n <;> cases h
  | 0, st, l :: ls, h => by cases h
  | n + 1, st, l :: ls, h => by
    unfold fileLoop at h
    rcases hr : readLine (ctx.subst st.1) [] (l :: ls) with e | ⟨line, rest⟩
    · rw [hr] at h; cases h
    · rw [hr] at h
      simp only at h
      rcases hp : processLine ctx inc st line with e | st1
      · rw [hp] at h
        cases h
        unfold processLine at hp
        split at hp
        · cases hp
        · dsimp only at hp
          split at hp
          · cases hp
          · split at hp
            · rename_i hi
              split at hp
              · cases hp
              · exact ⟨[], l :: ls, st.1, line, rest, rfl, hr, hi, hinc _ _ hp⟩
            · split at hp
              · split at hp <;> cases hp
              · cases hp
      · rw [hp] at h
        obtain ⟨pre, suf, env, line', rest', h1, h2, h3, h4⟩ := fileLoop_cyclic ctx inc bad P hinc n st1 rest h
        obtain ⟨block, qs, _, b2, _⟩ := readLine_spec _ _ _ _ _ hr (by simp)
        exact ⟨block ++ pre, suf, env, line', rest', by rw [b2, h1, List.append_assoc], h2, h3, h4⟩

theorem readFile_cyclic (ctx : Ctx) (bad : Str) : ∀ (k : Nat) (stack : List Str) (name : Str) (st : RState),
    (∀ h ∈ stack, Relation.ReflTransGen (Includes ctx) h name) →
    readFile ctx k stack name st = .error (.cyclic bad) →
    ∃ f h, Includes ctx f bad ∧ Relation.ReflTransGen (Includes ctx) h f ∧ ieq h bad = true
  | 0, _, _, _, _, h => by cases h
  | k + 1, stack, name, st, hst, h => by
    rw [readFile] at h
    rcases hf : ctx.fs name with _ | text
    · rw [hf] at h; cases h
    · rw [hf] at h
      simp only at h
      obtain ⟨pre, suf, env, line, rest, e1, e2, e3, e4⟩ := fileLoop_cyclic ctx _ bad
        (fun p => ∃ st', (if stack.any (ieq · p) then (.error (.cyclic p) : Except ReadErr RState)
          else readFile ctx k (p :: stack) p st') = .error (.cyclic bad)) (fun p st' hp => ⟨st', hp⟩) _ _ _ h
      obtain ⟨st', e4⟩ := e4
      have hinc : Includes ctx name (trim (line.drop (firstWord line).length)) :=
        ⟨text, hf, pre, suf, env, line, rest, _, _, e1, e2, word_spec line, e3, trim_spec _⟩
      split at e4
      · rename_i hany
        simp only [Except.error.injEq, ReadErr.cyclic.injEq] at e4
        rw [e4] at hinc hany
        rw [List.any_eq_true] at hany
        obtain ⟨x, hx, hxe⟩ := hany
        exact ⟨name, x, hinc, hst x hx, hxe⟩
      · refine readFile_cyclic ctx bad k _ _ st' ?_ e4
        intro x hx
        rcases List.mem_cons.mp hx with rfl | hx
        · exact Relation.ReflTransGen.refl
        · exact (hst x hx).tail hinc

end Jdftx.Input
