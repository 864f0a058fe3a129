import Verif.Lemmas.Commands

/-! # Lemmas on default commands and empty parameters -/
namespace Jdftx.Cmd
variable {N W : Type} [DecidableEq N]

/-- What mutual forbidding leaves unchanged. -/
def flags (c : Command N) : N × Bool × Bool := (c.name, c.hasDefault, c.emptyParamError)

theorem addForbid_flags (ci : Command N) (f : N) (cmds : List (Command N)) : (addForbid ci f cmds).map flags = cmds.map flags := by
  unfold addForbid
  rw [List.map_map]
  refine List.map_congr_left fun c _ => ?_
  simp only [Function.comp_apply]
  split <;> rfl

theorem mutualOne_flags {cmds : List (Command N)} {ci : Command N} {cmds' : List (Command N)} (h : mutualOne cmds ci = .ok cmds') : cmds'.map flags = cmds.map flags := by
  unfold mutualOne at h
  split at h
  · cases h; rfl
  · rename_i c _
    have : ∀ (fs : List N) (cmds cmds' : List (Command N)),
        fs.foldlM (fun cmds f => if (lookup cmds f).isNone then (.error .die : Res _) else .ok (addForbid c f cmds)) cmds = .ok cmds' → cmds'.map flags = cmds.map flags := by
      intro fs
      induction fs with
      | nil => intro a b h; cases h; rfl
      | cons f fs ih =>
        intro a b h
        rw [List.foldlM_cons] at h
        by_cases hl : (lookup a f).isNone
        · rw [if_pos hl] at h; cases h
        · rw [if_neg hl] at h
          exact (ih _ _ h).trans (addForbid_flags _ _ _)
    exact this _ _ _ h

theorem mutualForbids_flags {orig cmds : List (Command N)} (h : mutualForbids orig = .ok cmds) : cmds.map flags = orig.map flags := by
  unfold mutualForbids at h
  have : ∀ (l cmds cmds' : List (Command N)), l.foldlM mutualOne cmds = .ok cmds' → cmds'.map flags = cmds.map flags := by
    intro l
    induction l with
    | nil => intro a b h; cases h; rfl
    | cons c cs ih =>
      intro a b h
      rw [List.foldlM_cons] at h
      rcases hm : mutualOne a c with e | a'
      · rw [hm] at h; cases h
      · rw [hm] at h
        exact (ih _ _ h).trans (mutualOne_flags hm)
  exact this _ _ _ h

/-- Default calls of a command. -/
def defaults (x : N) (s : PState N W) : List (Call N) := s.calls.filter (fun k => k.name = x && k.dflt)

theorem enc_zero {cmds : List (Command N)} {s : PState N W} (h : RunInv cmds s) (x : N) : s.encountered x = 0 ↔ ∀ k ∈ s.calls, k.name ≠ x := by
  rw [h.enc, List.countP_eq_zero]
  simp

theorem defaultStep_calls {cmds : List (Command N)} (sem : Semantics N W) (lev : Levels N) (pass : Nat) {c : Command N} {s : PState N W} (h : RunInv cmds s)
    (hc : lookup cmds c.name = some c) :
    (defaultStep sem lev pass s c).calls = s.calls ++ if lev c.name = some pass ∧ c.hasDefault = true ∧ s.encountered c.name = 0 then [⟨c.name, [], true⟩] else [] := by
  unfold defaultStep
  by_cases hp : lev c.name = some pass
  · rw [if_pos hp]
    by_cases hd : c.hasDefault = true ∧ s.encountered c.name = 0
    · rw [if_pos (by simp [hd.1, hd.2]), if_pos ⟨hp, hd⟩]
      exact (safeProcess_inv sem hc [] true h).2.1
    · rw [if_neg (by simpa using hd), if_neg (fun h => hd h.2), List.append_nil]
  · rw [if_neg hp, if_neg (fun h => hp h.1), List.append_nil]

theorem defaults_fold {cmds : List (Command N)} (sem : Semantics N W) (lev : Levels N) (pass : Nat) (x : N) :
    ∀ (cs : List (Command N)) (s : PState N W), RunInv cmds s → (∀ c ∈ cs, lookup cmds c.name = some c) → (cs.map (·.name)).Nodup →
      defaults x (cs.foldl (defaultStep sem lev pass) s) =
        defaults x s ++ if lev x = some pass ∧ (∃ c ∈ cs, c.name = x ∧ c.hasDefault = true) ∧ s.encountered x = 0 then [⟨x, [], true⟩] else []
  | [], s, _, _, _ => by simp
  | c :: cs, s, h, hc, hn => by
    rw [List.foldl_cons]
    have h1 := (defaultStep_spec sem lev pass h (hc c (by simp))).1
    have h2 := defaultStep_calls sem lev pass h (hc c (by simp))
    rw [List.map_cons, List.nodup_cons] at hn
    rw [defaults_fold sem lev pass x cs _ h1 (fun d hd => hc d (by simp [hd])) hn.2]
    by_cases hx : c.name = x
    · have hno : ¬ ∃ d ∈ cs, d.name = x ∧ d.hasDefault = true := by
        rintro ⟨d, hd, hdn, _⟩
        exact hn.1 (List.mem_map.2 ⟨d, hd, hdn.trans hx.symm⟩)
      rw [if_neg (fun h => hno h.2.1), List.append_nil]
      unfold defaults
      rw [h2, List.filter_append]
      congr 1
      rw [hx]
      have : (∃ d ∈ c :: cs, d.name = x ∧ d.hasDefault = true) ↔ c.hasDefault = true := by
        constructor
        · rintro ⟨d, hd, hdn, hdd⟩
          rcases List.mem_cons.1 hd with rfl | hd
          · exact hdd
          · exact absurd ⟨d, hd, hdn, hdd⟩ hno
        · intro hd; exact ⟨c, by simp, hx, hd⟩
      simp only [this]
      split <;> simp
    · have he : (defaultStep sem lev pass s c).encountered x = 0 ↔ s.encountered x = 0 := by
        rw [enc_zero h1, enc_zero h, h2]
        constructor
        · intro hk k hk'; exact hk k (List.mem_append_left _ hk')
        · intro hk k hk'
          rcases List.mem_append.1 hk' with hk' | hk'
          · exact hk k hk'
          · split at hk'
            · rw [List.mem_singleton] at hk'; subst hk'; exact hx
            · simp at hk'
      have hd : defaults x (defaultStep sem lev pass s c) = defaults x s := by
        unfold defaults
        rw [h2, List.filter_append]
        split
        · simp [hx]
        · simp
      have hex : (∃ d ∈ c :: cs, d.name = x ∧ d.hasDefault = true) ↔ ∃ d ∈ cs, d.name = x ∧ d.hasDefault = true := by
        constructor
        · rintro ⟨d, hd, hdn, hdd⟩
          rcases List.mem_cons.1 hd with rfl | hd
          · exact absurd hdn hx
          · exact ⟨d, hd, hdn, hdd⟩
        · rintro ⟨d, hd, h⟩; exact ⟨d, List.mem_cons_of_mem _ hd, h⟩
      rw [hd]
      simp only [he, hex]

theorem onePass_calls (sem : Semantics N W) (cmds : List (Command N)) (lev : Levels N) (input : List (N × List Char)) (s : PState N W) (pass : Nat) :
    (onePass sem cmds lev input s pass).calls = (cmds.foldl (defaultStep sem lev pass) (input.foldl (inputStep sem cmds lev pass) s)).calls := by
  unfold onePass
  dsimp only
  split <;> rfl

theorem defaults_passes {cmds : List (Command N)} (hnd : (cmds.map (·.name)).Nodup) (sem : Semantics N W) (lev : Levels N) (input : List (N × List Char))
    (hk : ∀ i ∈ input, (lookup cmds i.1).isSome) (w : W) {c : Command N} (hc : c ∈ cmds) {l : Nat} (hl : lev c.name = some l) :
    ∀ n, defaults c.name ((List.range n).foldl (onePass sem cmds lev input) ⟨fun _ => 0, [], w, [], []⟩) =
      if l < n ∧ c.hasDefault = true ∧ c.name ∉ input.map (·.1) then [⟨c.name, [], true⟩] else []
  | 0 => by simp [defaults]
  | n + 1 => by
    have ih := defaults_passes hnd sem lev input hk w hc hl n
    obtain ⟨h1, h2⟩ := parse_passes hnd sem lev input hk w n
    rw [List.range_succ, List.foldl_append, List.foldl_cons, List.foldl_nil]
    set s := (List.range n).foldl (onePass sem cmds lev input) ⟨fun _ => 0, [], w, [], []⟩ with hs
    obtain ⟨g1, g2⟩ := inputs_spec sem lev n input s h1 hk
    have e1 : defaults c.name (onePass sem cmds lev input s n) = defaults c.name (cmds.foldl (defaultStep sem lev n) (input.foldl (inputStep sem cmds lev n) s)) := by
      unfold defaults; rw [onePass_calls]
    rw [e1, defaults_fold sem lev n c.name cmds _ g1 (fun d hd => lookup_mem hnd hd) hnd]
    have e2 : defaults c.name (input.foldl (inputStep sem cmds lev n) s) = defaults c.name s := by
      unfold defaults
      rw [g2, List.filter_append]
      have : ((input.filter (fun i => lev i.1 = some n)).map (fun i => (⟨i.1, i.2 ++ [' '], false⟩ : Call N))).filter (fun k => k.name = c.name && k.dflt) = [] := by
        rw [List.filter_eq_nil_iff]
        intro k hk
        obtain ⟨i, _, rfl⟩ := List.mem_map.1 hk
        simp
      rw [this, List.append_nil]
    rw [e2, ih, hl]
    have hex : (∃ d ∈ cmds, d.name = c.name ∧ d.hasDefault = true) ↔ c.hasDefault = true := by
      constructor
      · rintro ⟨d, hd, hdn, hdd⟩
        have := lookup_mem hnd hd
        rw [hdn, lookup_mem hnd hc] at this
        cases this; exact hdd
      · intro h; exact ⟨c, hc, rfl, h⟩
    simp only [hex]
    by_cases hln : l = n
    · subst hln
      have he : (input.foldl (inputStep sem cmds lev l) s).encountered c.name = 0 ↔ c.name ∉ input.map (·.1) := by
        rw [enc_zero g1, g2]
        constructor
        · intro h hm
          obtain ⟨i, hi, hin⟩ := List.mem_map.1 hm
          refine h ⟨i.1, i.2 ++ [' '], false⟩ (List.mem_append_right _ (List.mem_map.2 ⟨i, List.mem_filter.2 ⟨hi, ?_⟩, rfl⟩)) hin
          rw [hin]; simpa using hl
        · intro h k hk hkn
          rcases List.mem_append.1 hk with hk | hk
          · obtain ⟨l', hl', hl2⟩ := h2.below k hk
            rw [hkn, hl] at hl2
            cases hl2; omega
          · obtain ⟨i, hi, rfl⟩ := List.mem_map.1 hk
            exact h (List.mem_map.2 ⟨i, (List.mem_filter.1 hi).1, hkn⟩)
      have hA : ¬ l < l := lt_irrefl l
      have hB : l < l + 1 := Nat.lt_succ_self l
      by_cases hq : c.hasDefault = true ∧ c.name ∉ input.map (·.1)
      · rw [if_neg (fun h => hA h.1), if_pos ⟨rfl, hq.1, he.2 hq.2⟩, if_pos ⟨hB, hq⟩, List.nil_append]
      · rw [if_neg (fun h => hA h.1), if_neg (fun h => hq ⟨h.2.1, he.1 h.2.2⟩), if_neg (fun h => hq h.2), List.nil_append]
    · have h3 : ¬ (some l = some n ∧ c.hasDefault = true ∧ (input.foldl (inputStep sem cmds lev n) s).encountered c.name = 0) := by
        rintro ⟨h, _⟩; exact hln (Option.some.inj h)
      rw [if_neg h3, List.append_nil]
      have : l < n ↔ l < n + 1 := by omega
      simp only [this]

/-- Errors are never dropped. -/
theorem safeProcess_errors (sem : Semantics N W) (c : Command N) (p : List Char) (b : Bool) (s : PState N W) : ∃ e, (safeProcess sem c p b s).errors = s.errors ++ e := by
  unfold safeProcess
  dsimp only
  split
  · exact ⟨_, rfl⟩
  · split
    · exact ⟨_, rfl⟩
    · exact ⟨(c.forbids.filter (fun f => Function.update s.encountered c.name (s.encountered c.name + 1) f ≠ 0)).map (fun _ => c.name)
        ++ if (sem.process c.name p s.world).2 then [c.name] else [], by simp [List.append_assoc]⟩

theorem inputStep_errors (sem : Semantics N W) (cmds : List (Command N)) (lev : Levels N) (pass : Nat) (s : PState N W) (i : N × List Char)
    (h : (inputStep sem cmds lev pass s i).errors = []) :
    s.errors = [] ∧ (lev i.1 = some pass → ∀ c, lookup cmds i.1 = some c → c.emptyParamError = true → ∃ x ∈ i.2, x ∉ [' ', '\t', '\n', '\r']) := by
  unfold inputStep at h
  by_cases hp : lev i.1 = some pass
  · rw [if_pos hp] at h
    rcases hl : lookup cmds i.1 with _ | c
    · rw [hl] at h; exact ⟨h, fun _ c hc => by cases hc⟩
    · rw [hl] at h
      dsimp only at h
      by_cases hb : isBlank i.2 = true ∧ c.emptyParamError = true
      · rw [if_pos (by simp [hb.1, hb.2])] at h
        obtain ⟨e, he⟩ := safeProcess_errors sem c (i.2 ++ [' ']) false { s with errors := s.errors ++ [c.name] }
        rw [he] at h; simp at h
      · rw [if_neg (by simpa using hb)] at h
        obtain ⟨e, he⟩ := safeProcess_errors sem c (i.2 ++ [' ']) false s
        rw [he] at h
        refine ⟨(List.append_eq_nil_iff.1 h).1, fun _ c' hc' hE => ?_⟩
        cases hc'
        have : ¬ isBlank i.2 = true := fun h => hb ⟨h, hE⟩
        unfold isBlank at this
        rw [List.all_eq_true] at this
        push Not at this
        obtain ⟨x, hx, hx'⟩ := this
        exact ⟨x, hx, by simpa [and_assoc] using hx'⟩
  · rw [if_neg hp] at h
    exact ⟨h, fun h' => absurd h' hp⟩

theorem inputs_errors (sem : Semantics N W) (cmds : List (Command N)) (lev : Levels N) (pass : Nat) :
    ∀ (input : List (N × List Char)) (s : PState N W), (input.foldl (inputStep sem cmds lev pass) s).errors = [] →
      s.errors = [] ∧ ∀ i ∈ input, lev i.1 = some pass → ∀ c, lookup cmds i.1 = some c → c.emptyParamError = true → ∃ x ∈ i.2, x ∉ [' ', '\t', '\n', '\r']
  | [], s, h => ⟨h, by simp⟩
  | i :: is, s, h => by
    rw [List.foldl_cons] at h
    obtain ⟨h1, h2⟩ := inputs_errors sem cmds lev pass is _ h
    obtain ⟨h3, h4⟩ := inputStep_errors sem cmds lev pass s i h1
    refine ⟨h3, fun j hj => ?_⟩
    rcases List.mem_cons.1 hj with rfl | hj
    · exact h4
    · exact h2 j hj

theorem defaultsErrors (sem : Semantics N W) (lev : Levels N) (pass : Nat) :
    ∀ (cs : List (Command N)) (s : PState N W), (cs.foldl (defaultStep sem lev pass) s).errors = [] → s.errors = []
  | [], _, h => h
  | c :: cs, s, h => by
    rw [List.foldl_cons] at h
    have h1 := defaultsErrors sem lev pass cs _ h
    unfold defaultStep at h1
    split at h1
    · split at h1
      · obtain ⟨e, he⟩ := safeProcess_errors sem c [] true s
        rw [he] at h1
        exact (List.append_eq_nil_iff.1 h1).1
      · exact h1
    · exact h1

theorem passes_errors (sem : Semantics N W) (cmds : List (Command N)) (lev : Levels N) (input : List (N × List Char)) (w : W) :
    ∀ n, ((List.range n).foldl (onePass sem cmds lev input) ⟨fun _ => 0, [], w, [], []⟩).errors = [] →
      ∀ i ∈ input, ∀ l, lev i.1 = some l → l < n → ∀ c, lookup cmds i.1 = some c → c.emptyParamError = true → ∃ x ∈ i.2, x ∉ [' ', '\t', '\n', '\r']
  | 0, _ => fun _ _ _ _ h => by omega
  | n + 1, h => by
    rw [List.range_succ, List.foldl_append, List.foldl_cons, List.foldl_nil] at h
    set s := (List.range n).foldl (onePass sem cmds lev input) ⟨fun _ => 0, [], w, [], []⟩ with hs
    have h1 : (cmds.foldl (defaultStep sem lev n) (input.foldl (inputStep sem cmds lev n) s)).errors = [] := by
      unfold onePass at h
      dsimp only at h
      split at h <;> exact h
    obtain ⟨h2, h3⟩ := inputs_errors sem cmds lev n input s (defaultsErrors sem lev n cmds _ h1)
    intro i hi l hl hln c hc
    by_cases hn : l = n
    · exact h3 i hi (by rw [hl, hn]) c hc
    · exact passes_errors sem cmds lev input w n h2 i hi l hl (by omega) c hc

end Jdftx.Cmd
