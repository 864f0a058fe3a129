import Verif.Spec.Dump
import Mathlib.Algebra.Ring.Int.Defs
import Mathlib.Data.Int.DivMod
import Mathlib.Algebra.Order.Group.Unbundled.Int
import Mathlib.Order.Interval.Finset.Nat
import Mathlib.Data.Finset.Card
import Mathlib.Data.Nat.Count
import Mathlib.Tactic.Tauto
import Mathlib.Data.List.Forall2

/-!
# C54 (output file names) and C55 (output frequency)
-/
namespace Jdftx.Dump

/-! ### C54 -/

theorem sameLetter_upper {a b : Char} (h : SameLetter a b) : upper a = upper b := by
  rcases h with rfl | ⟨h1, h2, h3⟩ | ⟨h1, h2, h3⟩
  · rfl
  · simp only [upper, h3]; split <;> split <;> omega
  · simp only [upper, h3]; split <;> split <;> omega

theorem spelling_upper {s t : Str} (h : List.Forall₂ SameLetter s t) : s.map upper = t.map upper := by
  induction h with
  | nil => rfl
  | cons h _ ih => rw [List.map_cons, List.map_cons, sameLetter_upper h, ih]

theorem ieq_dollar (c : Char) : ieq c '$' = true ↔ c = '$' := by
  have h36 : upper '$' = 36 := by decide
  constructor
  · intro h
    simp only [ieq, h36, decide_eq_true_eq] at h
    unfold upper at h
    split at h
    · omega
    · exact Char.toNat_inj.mp h
  · rintro rfl; rfl

theorem startsWith_upper (k : Str) : ∀ s s' : Str, s.map upper = s'.map upper → startsWith k s = startsWith k s' := by
  induction k with
  | nil => intro s s' _; rfl
  | cons k ks ih =>
    intro s s' h
    cases s with
    | nil => cases s' with
      | nil => rfl
      | cons _ _ => simp at h
    | cons c cs => cases s' with
      | nil => simp at h
      | cons d ds =>
        simp only [List.map_cons, List.cons.injEq] at h
        simp [startsWith, ih cs ds h.2, ieq, h.1]

theorem startsWith_place (p q : Place) (s t : Str) (h : s.map upper = q.name.map upper) :
    startsWith p.name (s ++ t) = decide (p = q) := by
  rw [startsWith_upper p.name (s ++ t) (q.name ++ t) (by rw [List.map_append, List.map_append, h])]
  cases p <;> cases q <;> rfl

theorem name_head (p : Place) : ∃ r, p.name = '$' :: r := by cases p <;> exact ⟨_, rfl⟩

theorem startsWith_other (p : Place) (c : Char) (t : Str) (h : c ≠ '$') : startsWith p.name (c :: t) = false := by
  obtain ⟨r, hr⟩ := name_head p
  rw [hr]
  have : ieq c '$' = false := by
    cases hc : ieq c '$' with
    | false => rfl
    | true => exact absurd ((ieq_dollar c).mp hc) h
  simp [startsWith, this]

theorem replaceFirst_skip (p : Place) (v s t : Str) (h : ∀ c ∈ s, c ≠ '$') :
    replaceFirst p.name v (s ++ t) = (replaceFirst p.name v t).map (s ++ ·) := by
  induction s with
  | nil => simp
  | cons c s ih =>
    show (if startsWith p.name (c :: (s ++ t)) then _ else (replaceFirst p.name v (s ++ t)).map (c :: ·)) = _
    rw [startsWith_other p c _ (h c (by simp)), ih fun d hd => h d (by simp [hd])]
    simp only [Bool.false_eq_true, if_false, Option.map_map]
    rfl

theorem spelling_shape (q : Place) (s : Str) (h : s.map upper = q.name.map upper) :
    ∃ r, s = '$' :: r ∧ (∀ c ∈ r, c ≠ '$') ∧ s.length = q.name.length := by
  have hl : s.length = q.name.length := by simpa using congrArg List.length h
  cases s with
  | nil => cases q <;> simp [Place.name] at h
  | cons c r =>
    have hd : ieq c '$' = true ∧ r.map upper = q.name.tail.map upper := by
      obtain ⟨r', hr'⟩ := name_head q
      rw [hr', List.map_cons, List.map_cons] at h
      have := List.cons.inj h
      rw [hr']
      exact ⟨by simp [ieq, this.1], this.2⟩
    have hc := (ieq_dollar c).mp hd.1
    subst hc
    refine ⟨r, rfl, ?_, hl⟩
    intro c hcr hcd
    have : 36 ∈ q.name.tail.map upper := by
      rw [← hd.2, List.mem_map]
      exact ⟨c, hcr, by rw [hcd]; rfl⟩
    revert this
    cases q <;> decide

/-- Replacement of the first placeholder `p` on patterns. -/
def repl (p : Place) (v : List Piece) : List Piece → Option (List Piece)
  | [] => none
  | .ch c :: ps => (repl p v ps).map (.ch c :: ·)
  | .place q s :: ps => if p = q then some (v ++ ps) else (repl p v ps).map (.place q s :: ·)

theorem text_append (a b : List Piece) : text (a ++ b) = text a ++ text b := by
  induction a with
  | nil => rfl
  | cons x a ih => cases x <;> simp [text, ih]

theorem replaceFirst_text (p : Place) (v : List Piece) (ps : List Piece) (h : ∀ x ∈ ps, x.OK) :
    replaceFirst p.name (text v) (text ps) = (repl p v ps).map text := by
  induction ps with
  | nil =>
    obtain ⟨r, hr⟩ := name_head p
    simp [text, replaceFirst, hr, startsWith, repl]
  | cons x ps ih =>
    have ih := ih fun y hy => h y (by simp [hy])
    cases x with
    | ch c =>
      have hc : c ≠ '$' := h (.ch c) (by simp)
      have := replaceFirst_skip p (text v) [c] (text ps) (by simpa using hc)
      simp only [List.singleton_append] at this
      simp only [text, this, ih, repl, Option.map_map]
      rfl
    | place q s =>
      have hs : s.map upper = q.name.map upper := spelling_upper (h (.place q s) (by simp))
      obtain ⟨r, hr, hr2, hlen⟩ := spelling_shape q s hs
      have hst := startsWith_place p q s (text ps) hs
      by_cases hpq : p = q
      · subst hpq
        rw [decide_eq_true rfl] at hst
        simp only [text, repl, if_true, Option.map_some, text_append]
        have e : s ++ text ps = '$' :: (r ++ text ps) := by rw [hr]; rfl
        rw [e] at hst ⊢
        unfold replaceFirst
        rw [if_pos hst, ← e, ← hlen, List.drop_left]
      · rw [decide_eq_false hpq] at hst
        simp only [text, repl, if_neg hpq]
        have e : s ++ text ps = '$' :: (r ++ text ps) := by rw [hr]; rfl
        rw [e] at hst ⊢
        unfold replaceFirst
        rw [hst, replaceFirst_skip p (text v) r (text ps) hr2, ih]
        simp only [Bool.false_eq_true, if_false, Option.map_map]
        cases repl p v ps <;> simp [text, hr]

/-- Number of placeholders. -/
def places : List Piece → Nat
  | [] => 0
  | .ch _ :: ps => places ps
  | .place _ _ :: ps => places ps + 1

theorem places_append (a b : List Piece) : places (a ++ b) = places a + places b := by
  induction a with
  | nil => simp [places]
  | cons x a ih => cases x <;> (simp [places, ih]; try omega)

theorem expanded_append (val : Place → Str) (a b : List Piece) : expanded val (a ++ b) = expanded val a ++ expanded val b := by
  induction a with
  | nil => rfl
  | cons x a ih => cases x <;> simp [expanded, ih]

theorem text_no_place (val : Place → Str) (ps : List Piece) (h : places ps = 0) : text ps = expanded val ps := by
  induction ps with
  | nil => rfl
  | cons x ps ih =>
    cases x with
    | ch c => simp [text, expanded, ih h]
    | place q s => simp [places] at h

/-- A text without `$` as pattern. -/
def plain (s : Str) : List Piece := s.map .ch

theorem plain_text (s : Str) : text (plain s) = s := by
  induction s with
  | nil => rfl
  | cons c s ih => simp [plain, text] at *; exact ih
theorem plain_places (s : Str) : places (plain s) = 0 := by
  induction s with
  | nil => rfl
  | cons c s ih => simp [plain, places] at *; exact ih
theorem plain_expanded (val : Place → Str) (s : Str) : expanded val (plain s) = s := by
  rw [← text_no_place val _ (plain_places s), plain_text]

theorem repl_none (p : Place) (v ps : List Piece) : repl p v ps = none ↔ ∀ s, Piece.place p s ∉ ps := by
  induction ps with
  | nil => simp [repl]
  | cons x ps ih =>
    cases x with
    | ch c => simp [repl, ih]
    | place q s =>
      by_cases h : p = q
      · subst h
        simp only [repl, if_true, reduceCtorEq, false_iff, not_forall, not_not]
        exact ⟨s, by simp⟩
      · simp only [repl, if_neg h, Option.map_eq_none_iff, ih, List.mem_cons, Piece.place.injEq]
        constructor
        · intro hh t ht; rcases ht with ⟨rfl, _⟩ | ht
          · exact h rfl
          · exact hh t ht
        · intro hh t ht; exact hh t (Or.inr ht)

theorem repl_ok (p : Place) (v ps ps' : List Piece) (hv : ∀ x ∈ v, x.OK) (h : ∀ x ∈ ps, x.OK) (hr : repl p v ps = some ps') :
    ∀ x ∈ ps', x.OK := by
  induction ps generalizing ps' with
  | nil => simp [repl] at hr
  | cons y ps ih =>
    have h' : ∀ x ∈ ps, x.OK := fun x hx => h x (by simp [hx])
    cases y with
    | ch c =>
      simp only [repl, Option.map_eq_some_iff] at hr
      obtain ⟨q, hq, rfl⟩ := hr
      intro x hx
      rcases List.mem_cons.mp hx with rfl | hx
      · exact h _ (by simp)
      · exact ih q h' hq x hx
    | place q s =>
      by_cases hpq : p = q
      · simp only [repl, if_pos hpq, Option.some.injEq] at hr
        subst hr
        intro x hx
        rcases List.mem_append.mp hx with hx | hx
        · exact hv x hx
        · exact h' x hx
      · simp only [repl, if_neg hpq, Option.map_eq_some_iff] at hr
        obtain ⟨q', hq, rfl⟩ := hr
        intro x hx
        rcases List.mem_cons.mp hx with rfl | hx
        · exact h _ (by simp)
        · exact ih q' h' hq x hx

theorem repl_measure (val : Place → Str) (p : Place) (ps ps' : List Piece) (hr : repl p (plain (val p)) ps = some ps') :
    places ps = places ps' + 1 ∧ expanded val ps' = expanded val ps := by
  induction ps generalizing ps' with
  | nil => simp [repl] at hr
  | cons y ps ih =>
    cases y with
    | ch c =>
      simp only [repl, Option.map_eq_some_iff] at hr
      obtain ⟨q, hq, rfl⟩ := hr
      obtain ⟨a, b⟩ := ih q hq
      exact ⟨by simpa [places] using a, by simp [expanded, b]⟩
    | place q s =>
      by_cases hpq : p = q
      · simp only [repl, if_pos hpq, Option.some.injEq] at hr
        subst hr; subst hpq
        refine ⟨by simp [places, places_append, plain_places], by simp [expanded, expanded_append, plain_expanded]⟩
      · simp only [repl, if_neg hpq, Option.map_eq_some_iff] at hr
        obtain ⟨q', hq, rfl⟩ := hr
        obtain ⟨a, b⟩ := ih q' hq
        exact ⟨by simp [places]; omega, by simp [expanded, b]⟩

/-- The order in which the code tries the placeholders. -/
def order : List Place := [.input, .iter, .stamp, .var]

/-- One pass on patterns. -/
def passP (val : Place → List Piece) (l : List Place) (st : List Piece × Bool) : List Piece × Bool :=
  l.foldl (fun acc p => match repl p (val p) acc.1 with
    | some s' => (s', true)
    | none => acc) st

theorem pass_text (val : Place → List Piece) (hval : ∀ p, ∀ x ∈ val p, x.OK) (l : List Place) :
    ∀ (ps : List Piece) (b : Bool), (∀ x ∈ ps, x.OK) →
    (l.map fun p => (p.name, text (val p))).foldl (fun acc sub => match replaceFirst sub.1 sub.2 acc.1 with
      | some s' => (s', true)
      | none => acc) (text ps, b) = (text (passP val l (ps, b)).1, (passP val l (ps, b)).2) ∧
    ∀ x ∈ (passP val l (ps, b)).1, x.OK := by
  induction l with
  | nil => intro ps b h; exact ⟨rfl, h⟩
  | cons p l ih =>
    intro ps b h
    have hr := replaceFirst_text p (val p) ps h
    simp only [List.map_cons, List.foldl_cons, passP, hr]
    cases hc : repl p (val p) ps with
    | none => simp only [Option.map_none]; exact ih ps b h
    | some ps' => simp only [Option.map_some]; exact ih ps' true (repl_ok p _ ps ps' (hval p) h hc)

theorem passP_measure (val : Place → Str) (l : List Place) : ∀ (ps : List Piece) (b : Bool),
    let r := passP (fun p => plain (val p)) l (ps, b)
    expanded val r.1 = expanded val ps ∧ places r.1 ≤ places ps ∧
    (r.2 = true → b = true ∨ places r.1 < places ps) ∧
    (r.2 = false → r.1 = ps ∧ ∀ p ∈ l, ∀ s, Piece.place p s ∉ ps) := by
  induction l with
  | nil => intro ps b; simp [passP]
  | cons p l ih =>
    intro ps b
    simp only [passP, List.foldl_cons]
    cases hc : repl p (plain (val p)) ps with
    | none =>
      obtain ⟨a, b', c, d⟩ := ih ps b
      refine ⟨a, b', c, ?_⟩
      intro h
      obtain ⟨d1, d2⟩ := d h
      refine ⟨d1, ?_⟩
      intro q hq
      rcases List.mem_cons.mp hq with rfl | hq
      · exact (repl_none _ _ _).mp hc
      · exact d2 q hq
    | some ps' =>
      obtain ⟨m1, m2⟩ := repl_measure val p ps ps' hc
      obtain ⟨a, b', c, d⟩ := ih ps' true
      have hflag : ∀ (l : List Place) (x : List Piece), (passP (fun p => plain (val p)) l (x, true)).2 = true := by
        intro l
        induction l with
        | nil => intro x; rfl
        | cons q l ihl =>
          intro x
          simp only [passP, List.foldl_cons]
          cases repl q (plain (val q)) x <;> exact ihl _
      simp only [passP] at b'
      simp only
      refine ⟨a.trans m2, by omega, fun _ => Or.inr (by omega), ?_⟩
      intro h
      have := hflag l ps'
      simp only [passP] at this
      rw [this] at h; cases h

theorem no_places (ps : List Piece) (h : ∀ p ∈ order, ∀ s, Piece.place p s ∉ ps) : places ps = 0 := by
  induction ps with
  | nil => rfl
  | cons x ps ih =>
    cases x with
    | ch c => exact ih fun p hp s hs => h p hp s (by simp [hs])
    | place q s => exact absurd (by simp) (h q (by cases q <;> simp [order]) s)

theorem onePass_eq (val : Place → List Piece) (hval : ∀ p, ∀ x ∈ val p, x.OK) (ps : List Piece) (h : ∀ x ∈ ps, x.OK) :
    onePass (subMap (text (val .var)) (text (val .iter)) (text (val .stamp)) (text (val .input))) (text ps) =
      (text (passP val order (ps, false)).1, (passP val order (ps, false)).2) :=
  (pass_text val hval order ps false h).1

/-- **C54, partial.** For every pattern whose ordinary characters are not `$`, with placeholders in any spelling and any
number, and for all values without `$`: the expansion ends, and the result is the pattern with every placeholder replaced by
its value. Missing: values (or ordinary text) containing `$`, for which the claim is false, see `C54_self_reference`. -/
theorem C54_expand_partial (val : Place → Str) (hval : ∀ p, ∀ c ∈ val p, c ≠ '$') (ps : List Piece) (h : ∀ x ∈ ps, x.OK) :
    ∃ N, ∀ n ≥ N, expandN (subMap (val .var) (val .iter) (val .stamp) (val .input)) n (text ps) = some (expanded val ps) := by
  have hv : ∀ p, ∀ x ∈ plain (val p), x.OK := by
    intro p x hx
    simp only [plain, List.mem_map] at hx
    obtain ⟨c, hc, rfl⟩ := hx
    exact hval p c hc
  have e : subMap (val .var) (val .iter) (val .stamp) (val .input) =
      subMap (text (plain (val .var))) (text (plain (val .iter))) (text (plain (val .stamp))) (text (plain (val .input))) := by
    simp only [plain_text]
  rw [e]
  refine ⟨places ps + 1, ?_⟩
  intro n hn
  induction n generalizing ps with
  | zero => omega
  | succ n ih =>
    have h1 := onePass_eq (fun p => plain (val p)) hv ps h
    have h2 := (pass_text (fun p => plain (val p)) hv order ps false h).2
    obtain ⟨a, b, c, d⟩ := passP_measure val order ps false
    unfold expandN
    rw [h1]
    cases hf : (passP (fun p => plain (val p)) order (ps, false)).2 with
    | true =>
      simp only
      have : places (passP (fun p => plain (val p)) order (ps, false)).1 < places ps := by
        rcases c hf with h | h
        · cases h
        · exact h
      rw [ih _ h2 (by omega), a]
    | false =>
      obtain ⟨d1, d2⟩ := d hf
      simp only
      rw [text_no_place val _ (by rw [d1]; exact no_places ps d2), a]

theorem repl_keeps (p q : Place) (v ps ps' : List Piece) (hne : p ≠ q ∨ ∃ s, Piece.place q s ∈ v) (s : Str)
    (h : Piece.place q s ∈ ps) (hr : repl p v ps = some ps') : ∃ s', Piece.place q s' ∈ ps' := by
  induction ps generalizing ps' with
  | nil => simp at h
  | cons y ps ih =>
    cases y with
    | ch c =>
      simp only [repl, Option.map_eq_some_iff] at hr
      obtain ⟨r, hq, rfl⟩ := hr
      obtain ⟨s', hs'⟩ := ih r (by simpa using h) hq
      exact ⟨s', by simp [hs']⟩
    | place r t =>
      by_cases hpq : p = r
      · simp only [repl, if_pos hpq, Option.some.injEq] at hr
        subst hr; subst hpq
        rcases hne with hne | ⟨t', ht'⟩
        · rcases List.mem_cons.mp h with h | h
          · cases h; exact absurd rfl hne
          · exact ⟨s, by simp [h]⟩
        · exact ⟨t', by simp [ht']⟩
      · simp only [repl, if_neg hpq, Option.map_eq_some_iff] at hr
        obtain ⟨q', hq, rfl⟩ := hr
        rcases List.mem_cons.mp h with h | h
        · exact ⟨s, by simp [← h]⟩
        · obtain ⟨s', hs'⟩ := ih q' h hq
          exact ⟨s', by simp [hs']⟩

/-- **C54 is false for the code** when a value contains its own placeholder: for every such value and every pattern using it
the loop never ends (for example an input file called `run$INPUT.in`). -/
theorem C54_self_reference (val : Place → List Piece) (hval : ∀ p, ∀ x ∈ val p, x.OK) (q : Place)
    (hself : ∃ s, Piece.place q s ∈ val q) (n : Nat) : ∀ (ps : List Piece), (∀ x ∈ ps, x.OK) → (∃ s, Piece.place q s ∈ ps) →
    expandN (subMap (text (val .var)) (text (val .iter)) (text (val .stamp)) (text (val .input))) n (text ps) = none := by
  induction n with
  | zero => intro ps _ _; rfl
  | succ n ih =>
    intro ps h hq
    have h1 := onePass_eq val hval ps h
    have h2 := (pass_text val hval order ps false h).2
    have key : ∀ (l : List Place) (ps : List Piece) (b : Bool), (∃ s, Piece.place q s ∈ ps) → (q ∈ l ∨ b = true) →
        (passP val l (ps, b)).2 = true ∧ ∃ s, Piece.place q s ∈ (passP val l (ps, b)).1 := by
      intro l
      induction l with
      | nil => intro ps b hp hb; exact ⟨by simpa [passP] using hb, hp⟩
      | cons p l ihl =>
        intro ps b hp hb
        simp only [passP, List.foldl_cons]
        cases hc : repl p (val p) ps with
        | none =>
          refine ihl ps b hp ?_
          rcases hb with hb | hb
          · rcases List.mem_cons.mp hb with rfl | hb
            · obtain ⟨s, hs⟩ := hp
              exact absurd hs ((repl_none _ _ _).mp hc s)
            · exact Or.inl hb
          · exact Or.inr hb
        | some ps' =>
          obtain ⟨s, hs⟩ := hp
          refine ihl ps' true (repl_keeps p q _ ps ps' ?_ s hs hc) (Or.inr rfl)
          by_cases hpq : p = q
          · subst hpq; exact Or.inr hself
          · exact Or.inl hpq
    obtain ⟨k1, k2⟩ := key order ps false hq (Or.inl (by cases q <;> simp [order]))
    unfold expandN
    rw [h1, k1]
    exact ih _ h2 k2

example : expandN (subMap "n".toList "12".toList "t".toList "water".toList) 3 "$input.$VAR-$Iter$VAR".toList
    = some "water.n-12n".toList := by decide +kernel

example : text [.place .input "$input".toList, .ch '.', .place .var "$VAR".toList] = "$input.$VAR".toList ∧
    (∀ x ∈ [Piece.place .input "$input".toList, .ch '.', .place .var "$VAR".toList], x.OK) := by
  refine ⟨by decide, ?_⟩
  intro x hx
  simp only [List.mem_cons, List.not_mem_nil, or_false] at hx
  rcases hx with rfl | rfl | rfl
  · show List.Forall₂ SameLetter _ ['$', 'I', 'N', 'P', 'U', 'T']
    simp [SameLetter]
  · show '.' ≠ '$'; decide
  · show List.Forall₂ SameLetter _ ['$', 'V', 'A', 'R']
    simp [SameLetter]

/-! ### C55 -/

/-- Input commands that concern output. -/
inductive Cmd where
  | dump (freq : Freq) (var : Nat)
  | interval (freq : Freq) (n : Int)

/-- Processing of the commands in turn. -/
def build : List Cmd → Table → Res Table
  | [], t => .ok t
  | .dump f v :: cs, t => build cs (dumpAdd t f v)
  | .interval f n :: cs, t => match dumpInterval t f n with
    | .error e => .error e
    | .ok t' => build cs t'

theorem build_interval (cs : List Cmd) : ∀ t t', build cs t = .ok t' →
    ∀ f, t'.interval.find? (fun p => p.1 = f) =
      (match t.interval.find? (fun p => p.1 = f) with
        | some p => some p
        | none => (cs.filterMap fun c => match c with | .interval g n => some (g, n) | _ => none).find? (fun p => p.1 = f)) ∧
    (∀ n, Cmd.interval f n ∈ cs → 1 ≤ n ∧ f ≠ .end_ ∧ f ≠ .init ∧ t.interval.find? (fun p => p.1 = f) = none ∧
      (cs.filterMap fun c => match c with | .interval g n => some (g, n) | _ => none).find? (fun p => p.1 = f) = some (f, n)) := by
  induction cs with
  | nil => intro t t' h f; cases h; refine ⟨?_, by simp⟩; cases List.find? _ t.interval <;> rfl
  | cons c cs ih =>
    intro t t' h f
    cases c with
    | dump g v =>
      have h' : build cs (dumpAdd t g v) = .ok t' := h
      have e : (dumpAdd t g v).interval = t.interval := by unfold dumpAdd; split <;> rfl
      obtain ⟨a, b⟩ := ih _ _ h' f
      rw [e] at a b
      refine ⟨a, ?_⟩
      intro n hn
      exact b n (by simpa using hn)
    | interval g m =>
      have h' : (match dumpInterval t g m with | .error e => (.error e : Res Table) | .ok t' => build cs t') = .ok t' := h
      cases hd : dumpInterval t g m with
      | error e => rw [hd] at h'; cases h'
      | ok t1 =>
        rw [hd] at h'
        unfold dumpInterval at hd
        split at hd
        · cases hd
        rename_i hg
        split at hd
        · cases hd
        rename_i hn
        split at hd
        · cases hd
        rename_i hm
        cases hd
        obtain ⟨a, b⟩ := ih _ _ h' f
        simp only [Option.not_isSome_iff_eq_none] at hn
        simp only [List.find?_append] at a b
        push Not at hg
        by_cases hfg : g = f
        · subst hfg
          simp only [hn, List.find?_cons, decide_true, Option.none_or] at a b
          refine ⟨by rw [a, hn]; simp, ?_⟩
          intro n hmem
          rcases List.mem_cons.mp hmem with h2 | h2
          · cases h2
            exact ⟨by omega, hg.1, hg.2, hn, by simp⟩
          · have := (b n h2).2.2.2.1; simp at this
        · simp only [List.find?_cons, decide_eq_false hfg, List.find?_nil, Option.or_none] at a b
          refine ⟨by rw [a]; simp [decide_eq_false hfg], ?_⟩
          intro n hmem
          rcases List.mem_cons.mp hmem with h2 | h2
          · cases h2; exact absurd rfl hfg
          · obtain ⟨b1, b2, b3, b4, b5⟩ := b n h2
            exact ⟨b1, b2, b3, b4, by simpa [decide_eq_false hfg] using b5⟩

/-- The frequencies for which an interval is given, in order. -/
def intervalFreqs (cs : List Cmd) : List Freq := cs.filterMap fun c => match c with | .interval f _ => some f | _ => none

theorem mem_intervalFreqs (cs : List Cmd) (f : Freq) : f ∈ intervalFreqs cs ↔ ∃ n, Cmd.interval f n ∈ cs := by
  simp only [intervalFreqs, List.mem_filterMap]
  constructor
  · rintro ⟨c, hc, h⟩
    cases c with
    | dump g v => simp at h
    | interval g n => simp only [Option.some.injEq] at h; subst h; exact ⟨n, hc⟩
  · rintro ⟨n, hn⟩; exact ⟨_, hn, rfl⟩

theorem build_accepts (cs : List Cmd) : ∀ t, (∃ t', build cs t = .ok t') ↔
    (∀ f n, Cmd.interval f n ∈ cs → 1 ≤ n ∧ f ≠ .end_ ∧ f ≠ .init ∧ t.interval.find? (fun p => p.1 = f) = none) ∧
      (intervalFreqs cs).Nodup := by
  induction cs with
  | nil => intro t; simp [build, intervalFreqs]
  | cons c cs ih =>
    intro t
    cases c with
    | dump g v =>
      have e : (dumpAdd t g v).interval = t.interval := by unfold dumpAdd; split <;> rfl
      have := ih (dumpAdd t g v)
      rw [e] at this
      simp only [build, List.mem_cons, reduceCtorEq, false_or]
      rw [this]; rfl
    | interval g m =>
      have e : intervalFreqs (Cmd.interval g m :: cs) = g :: intervalFreqs cs := rfl
      rw [e, List.nodup_cons, mem_intervalFreqs]
      simp only [build]
      constructor
      · rintro ⟨t', h⟩
        cases hd : dumpInterval t g m with
        | error e => rw [hd] at h; cases h
        | ok t1 =>
          rw [hd] at h
          have h1 := (ih t1).1 ⟨t', h⟩
          unfold dumpInterval at hd
          split at hd
          · cases hd
          rename_i hg
          split at hd
          · cases hd
          rename_i hn
          split at hd
          · cases hd
          rename_i hm
          cases hd
          push Not at hg
          simp only [Option.not_isSome_iff_eq_none] at hn
          simp only [List.find?_append] at h1
          refine ⟨?_, ?_, h1.2⟩
          · intro f n hmem
            rcases List.mem_cons.mp hmem with h2 | h2
            · cases h2; exact ⟨by omega, hg.1, hg.2, hn⟩
            · obtain ⟨a, b, c, d⟩ := h1.1 f n h2
              exact ⟨a, b, c, (Option.or_eq_none_iff.1 d).1⟩
          · rintro ⟨n, hn2⟩
            have := (h1.1 g n hn2).2.2.2
            simp [hn] at this
      · rintro ⟨h1, h2, h3⟩
        obtain ⟨a, b, c, d⟩ := h1 g m (by simp)
        have hd : dumpInterval t g m = .ok { t with interval := t.interval ++ [(g, m)] } := by
          unfold dumpInterval
          rw [if_neg (by simp [b, c]), if_neg (by simp [d]), if_neg (by omega)]
        rw [hd]
        simp only
        refine (ih _).2 ⟨?_, h3⟩
        intro f n hmem
        obtain ⟨a', b', c', d'⟩ := h1 f n (by simp [hmem])
        refine ⟨a', b', c', ?_⟩
        rw [List.find?_append, d']
        have : g ≠ f := by rintro rfl; exact h2 ⟨n, hmem⟩
        simp [this]

/-- **C55 (accepted input).** A list of output commands is accepted exactly if every interval is positive, is given for a
frequency other than `End` and `Init`, and no frequency has two of them. -/
theorem C55_accepted (cs : List Cmd) : (∃ t, build cs ⟨[], []⟩ = .ok t) ↔
    (∀ f n, Cmd.interval f n ∈ cs → 1 ≤ n ∧ f ≠ .end_ ∧ f ≠ .init) ∧ (intervalFreqs cs).Nodup := by
  rw [build_accepts]; simp

/-- **C55 (schedule).** For every accepted list of output commands and every iteration: if an interval `n` was given for a
frequency, output is due exactly when `n` divides the 1-based iteration number; if none was given it is always due. There is
never a division by zero. -/
theorem C55_schedule (cs : List Cmd) (t : Table) (h : build cs ⟨[], []⟩ = .ok t) (f : Freq) (iter : Int) :
    (∀ n, Cmd.interval f n ∈ cs → checkInterval t f iter = .ok (decide (n ∣ iter + 1))) ∧
    ((∀ n, Cmd.interval f n ∉ cs) → checkInterval t f iter = .ok true) := by
  obtain ⟨a, b⟩ := build_interval cs _ t h f
  simp only [List.find?_nil] at a
  refine ⟨?_, ?_⟩
  · intro n hn
    obtain ⟨b1, _, _, _, b5⟩ := b n hn
    unfold checkInterval
    rw [a, b5]
    simp only
    rw [if_neg (by omega)]
    congr 1
    rw [decide_eq_decide]
    exact Int.dvd_iff_tmod_eq_zero.symm
  · intro hn
    unfold checkInterval
    rw [a]
    have : (cs.filterMap fun c => match c with | .interval g n => some (g, n) | _ => none).find? (fun p => p.1 = f) = none := by
      rw [List.find?_eq_none]
      intro p hp hpf
      obtain ⟨c, hc, hcp⟩ := List.mem_filterMap.mp hp
      cases c with
      | dump g v => simp at hcp
      | interval g n =>
        simp only [Option.some.injEq] at hcp
        subst hcp
        simp only [decide_eq_true_eq] at hpf
        subst hpf
        exact hn n hc
    rw [this]

/-- **C55 (count).** Among the first `m` iterations there are exactly `m / n` outputs. -/
theorem C55_count (cs : List Cmd) (t : Table) (h : build cs ⟨[], []⟩ = .ok t) (f : Freq) (n : Nat) (hn : Cmd.interval f n ∈ cs)
    (m : Nat) : ((List.range m).filter fun (i : Nat) => checkInterval t f i = .ok true).length = m / n := by
  have hpos : 1 ≤ n := by
    have := ((build_interval cs _ t h f).2 n hn).1; omega
  have e : ∀ i : Nat, decide (checkInterval t f i = .ok true) = decide (n ∣ i + 1) := by
    intro i
    rw [(C55_schedule cs t h f i).1 n hn, decide_eq_decide]
    constructor
    · intro h; have := Except.ok.inj h; simp only [decide_eq_true_eq] at this; exact_mod_cast this
    · intro h; congr 1; simp only [decide_eq_true_eq]; exact_mod_cast h
  simp only [e]
  induction m with
  | zero => simp
  | succ m ih =>
    rw [List.range_succ, List.filter_append, List.length_append, ih, Nat.succ_div]
    by_cases hd : n ∣ m + 1 <;> simp [hd]

theorem build_vars (cs : List Cmd) : ∀ t t', build cs t = .ok t' →
    ∀ f v, (f, v) ∈ t'.vars ↔ (f, v) ∈ t.vars ∨ Cmd.dump f v ∈ cs := by
  induction cs with
  | nil => intro t t' h f v; cases h; simp
  | cons c cs ih =>
    intro t t' h f v
    cases c with
    | dump g w =>
      have h' : build cs (dumpAdd t g w) = .ok t' := h
      rw [ih _ _ h' f v]
      unfold dumpAdd
      split
      · rename_i hm
        simp only [List.mem_cons, Cmd.dump.injEq]
        constructor
        · rintro (h | h) <;> tauto
        · rintro (h | ⟨rfl, rfl⟩ | h) <;> tauto
      · simp only [List.mem_append, Prod.mk.injEq, List.mem_cons, Cmd.dump.injEq]; tauto
    | interval g m =>
      have h' : (match dumpInterval t g m with | .error e => (.error e : Res Table) | .ok t' => build cs t') = .ok t' := h
      cases hd : dumpInterval t g m with
      | error e => rw [hd] at h'; cases h'
      | ok t1 =>
        rw [hd] at h'
        have e : t1.vars = t.vars := by
          unfold dumpInterval at hd
          split at hd
          · cases hd
          split at hd
          · cases hd
          split at hd
          · cases hd
          cases hd; rfl
        rw [ih _ _ h' f v, e]
        simp

/-- **C55 (contents).** When output is due, exactly the variables requested for that frequency are written (apart from the
saved state of an interrupted run, next theorem). -/
theorem C55_contents (cs : List Cmd) (t : Table) (h : build cs ⟨[], []⟩ = .ok t) (f : Freq) (iter : Int)
    (hdue : checkInterval t f iter = .ok true) :
    ∃ out t', operatorCall t false f iter = .ok (out, t') ∧ ∀ v, v ∈ out ↔ Cmd.dump f v ∈ cs ∧ v ≠ dumpNone := by
  refine ⟨(t.vars.filter (fun p => p.1 = f ∧ p.2 ≠ dumpNone)).map Prod.snd, t, ?_, ?_⟩
  · unfold operatorCall; rw [hdue]; simp only [Bool.and_false, Bool.false_eq_true, if_false]
  intro v
  simp only [List.mem_map, List.mem_filter, decide_eq_true_eq, Prod.exists]
  constructor
  · rintro ⟨g, w, ⟨h1, h2, h3⟩, h4⟩
    subst h2; subst h4
    refine ⟨?_, h3⟩
    rcases (build_vars cs _ t h g w).mp h1 with h | h
    · simp at h
    · exact h
  · rintro ⟨h1, h2⟩
    exact ⟨f, v, ⟨(build_vars cs _ t h f v).mpr (Or.inr h1), rfl, h2⟩, rfl⟩

/-- **C55 (not due).** When output is not due nothing is written. -/
theorem C55_not_due (t : Table) (kill : Bool) (f : Freq) (iter : Int) (h : checkInterval t f iter = .ok false) :
    operatorCall t kill f iter = .ok ([], t) := by
  unfold operatorCall; rw [h]

/-- **C55 (interrupted run).** The final output of an interrupted run writes the restart state, whatever was requested. -/
theorem C55_interrupted (cs : List Cmd) (t : Table) (h : build cs ⟨[], []⟩ = .ok t) (iter : Int) :
    ∃ out t', operatorCall t true .end_ iter = .ok (out, t') ∧ dumpState ∈ out := by
  have hnone : ∀ n, Cmd.interval .end_ n ∉ cs := by
    intro n hn
    exact ((build_interval cs _ t h .end_).2 n hn).2.1 rfl
  have hdue := (C55_schedule cs t h .end_ iter).2 hnone
  refine ⟨_, _, by unfold operatorCall; rw [hdue], ?_⟩
  simp only [decide_true, Bool.and_self, if_true, List.mem_map, List.mem_filter, decide_eq_true_eq]
  refine ⟨(.end_, dumpState), ⟨?_, rfl, by decide⟩, rfl⟩
  unfold dumpAdd
  split
  · assumption
  · simp

example : build [.dump .electronic 5, .interval .electronic 3, .dump .end_ 2] ⟨[], []⟩
    = .ok ⟨[(.electronic, 5), (.end_, 2)], [(.electronic, 3)]⟩ := by decide

end Jdftx.Dump
