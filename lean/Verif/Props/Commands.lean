import Verif.Lemmas.Commands
import Verif.Lemmas.CommandDefaults
/-!
# C10, C11, C12: processing order, order independence and exclusion of commands
-/
namespace Jdftx.Cmd
open Jdftx.Spec

variable {N : Type} [DecidableEq N] {W : Type}

/-- **C10** (levels). For every command map with distinct names, start-up either aborts, and then some
requirement is unknown or requirements are cyclic, or gives every command a level not above the last pass such
that each of its requirements is known and has a strictly smaller level. (In particular the pass loop ends.) -/
theorem C10_levels (cmds : List (Command N)) (hnd : (cmds.map (·.name)).Nodup) :
    (buildLevels cmds = .error .die ∧ ¬ (AllKnown cmds ∧ Acyclic cmds)) ∨
    (∃ lev n, buildLevels cmds = .ok (lev, n) ∧ AllKnown cmds ∧ Acyclic cmds ∧
      ∀ c ∈ cmds, ∃ l ≤ n, lev c.name = some l ∧ ∀ r ∈ c.requires, ∃ l' < l, lev r = some l') := by
  have h0 : LevInv cmds 0 (fun _ => none) := ⟨by simp, by simp⟩
  have hu : unproc cmds (fun _ => none) < cmds.length + 1 := by
    unfold unproc
    have := List.countP_le_length (p := fun c : Command N => ((fun _ => none : Levels N) c.name).isNone) (l := cmds)
    omega
  rcases passes_cases cmds hnd _ _ _ h0 hu with h | ⟨lev, n, h1, h2, h3⟩
  · exact Or.inl h
  · right
    have hl : ∀ c ∈ cmds, ∃ l ≤ n, lev c.name = some l := by
      intro c hc
      rcases hq : lev c.name with _ | l
      · have := h3 c hc; rw [hq] at this; cases this
      · have := h2.1 _ _ hq
        exact ⟨l, by omega, rfl⟩
    refine ⟨lev, n, h1, ?_, ⟨fun x => (lev x).getD 0, ?_⟩, ?_⟩
    · intro c hc r hr
      obtain ⟨l, _, hl'⟩ := hl c hc
      exact (h2.2 c hc l hl' r hr).1
    · intro c hc r hr
      obtain ⟨l, _, hl'⟩ := hl c hc
      obtain ⟨l', h4, h5⟩ := (h2.2 c hc l hl' r hr).2
      simp only [hl', h5, Option.getD_some]
      exact h4
    · intro c hc
      obtain ⟨l, h4, hl'⟩ := hl c hc
      exact ⟨l, h4, hl', fun r hr => (h2.2 c hc l hl' r hr).2⟩

/-- Splits an accepted run of `parse` into its parts. -/
theorem parse_ok {sem : Semantics N W} {orig : List (Command N)} {input : List (N × List Char)} {w : W}
    {s : PState N W} (h : parse sem orig input w = .ok s) :
    ∃ lev n cmds, buildLevels orig = .ok (lev, n) ∧ mutualForbids orig = .ok cmds ∧
      s = parseState sem cmds lev n input w ∧ unknownNames cmds input = [] ∧ s.errors = [] := by
  unfold parse at h
  rcases hb : buildLevels orig with e | ⟨lev, n⟩
  · rw [hb] at h; cases h
  · rw [hb, FileIO.bind_ok] at h
    rcases hm : mutualForbids orig with e | cmds
    · rw [hm] at h; cases h
    · rw [hm] at h
      dsimp only at h
      rw [FileIO.bind_ok] at h
      split at h
      · rename_i hc
        cases h
        exact ⟨lev, n, cmds, rfl, rfl, rfl, hc.1, hc.2⟩
      · cases h

/-- Everything known about the state reached by the passes of `parse`. -/
theorem parseState_facts (sem : Semantics N W) (orig : List (Command N)) (hnd : (orig.map (·.name)).Nodup)
    (lev : Levels N) (n : Nat) {cmds : List (Command N)}
    (hm : mutualForbids orig = .ok cmds) (input : List (N × List Char)) (w : W) :
    RunInv cmds (parseState sem cmds lev n input w) ∧
    LogInv lev (input.filter (fun i => (lookup cmds i.1).isSome)) (n + 1)
      (parseState sem cmds lev n input w).calls ∧
    (cmds.map (·.name)).Nodup ∧ Ext orig cmds := by
  have hext := (mutual_outer orig orig cmds hm).1
  have hnd' : (cmds.map (·.name)).Nodup := by rw [hext.1]; exact hnd
  have := parse_passes hnd' sem lev (input.filter (fun i => (lookup cmds i.1).isSome))
    (fun i hi => by simpa using (List.mem_filter.mp hi).2) w (n + 1)
  exact ⟨this.1, this.2, hnd', hext⟩

/-- **C10** (order). Whatever the input, once start-up has accepted the command map: the input commands
processed are exactly the known input commands, each as often as it occurs; whenever a command is processed
at position `pre.length`, no command it requires is processed later (or at the same time); and a command is
only executed when each command it requires has been processed before it. -/
theorem C10_order (sem : Semantics N W) (orig : List (Command N)) (hnd : (orig.map (·.name)).Nodup)
    (lev : Levels N) (n : Nat) (hb : buildLevels orig = .ok (lev, n)) (cmds : List (Command N))
    (hm : mutualForbids orig = .ok cmds) (input : List (N × List Char)) (w : W) :
    let s := parseState sem cmds lev n input w
    (s.calls.filter (fun k => !k.dflt)).Perm
      ((input.filter (fun i => i.1 ∈ orig.map (·.name))).map (fun i => ⟨i.1, i.2 ++ [' '], false⟩)) ∧
    (∀ pre k post, s.calls = pre ++ k :: post → ∀ c ∈ orig, c.name = k.name → ∀ r ∈ c.requires,
      ∀ j ∈ k :: post, j.name ≠ r) ∧
    (∀ k ∈ s.ran, ∃ pre post, s.calls = pre ++ k :: post ∧ ∀ c ∈ orig, c.name = k.name → ∀ r ∈ c.requires,
      ∃ j ∈ pre, j.name = r) := by
  intro s
  obtain ⟨hrun, hlog, hnd', hext⟩ := parseState_facts sem orig hnd lev n hm input w
  have hlev : ∀ c ∈ orig, ∃ l ≤ n, lev c.name = some l ∧ ∀ r ∈ c.requires, ∃ l' < l, lev r = some l' := by
    rcases C10_levels orig hnd with ⟨h, _⟩ | ⟨lev', n', h1, _, _, h2⟩
    · rw [hb] at h; cases h
    · rw [hb] at h1; cases h1; exact h2
  have hmem : ∀ x, (lookup cmds x).isSome ↔ x ∈ orig.map (·.name) := by
    intro x
    rw [← hext.1]
    constructor
    · intro h
      rcases hl : lookup cmds x with _ | c
      · rw [hl] at h; cases h
      · obtain ⟨h1, h2⟩ := lookup_name hl
        rw [← h2]; exact List.mem_map_of_mem h1
    · intro h
      obtain ⟨c, hc, rfl⟩ := List.mem_map.mp h
      rw [lookup_mem hnd' hc]; rfl
  have hlater : ∀ pre k post, s.calls = pre ++ k :: post → ∀ c ∈ orig, c.name = k.name → ∀ r ∈ c.requires,
      ∀ j ∈ k :: post, j.name ≠ r := by
    intro pre k post hs c hc hck r hr j hj hjr
    obtain ⟨l, _, hl, hreq⟩ := hlev c hc
    obtain ⟨l', hlt, hl'⟩ := hreq r hr
    have hsort := hlog.sorted
    change s.calls.Pairwise _ at hsort
    rw [hs, List.pairwise_append] at hsort
    have h2 := (List.pairwise_cons.mp hsort.2.1).1
    rcases List.mem_cons.mp hj with rfl | hj
    · rw [← hjr, ← hck, hl] at hl'
      cases hl'; omega
    · have := h2 j hj l l' (by rw [← hck]; exact hl) (by rw [hjr]; exact hl')
      omega
  refine ⟨?_, hlater, ?_⟩
  · refine hlog.inputs.trans (List.Perm.of_eq ?_)
    congr 1
    rw [List.filter_filter]
    apply List.filter_congr
    intro i _
    by_cases hk : i.1 ∈ orig.map (·.name)
    · have hs := (hmem i.1).mpr hk
      obtain ⟨c, hc, hcn⟩ := List.mem_map.mp hk
      obtain ⟨l, hle, hl, _⟩ := hlev c hc
      rw [hcn] at hl
      rw [hl, hs]
      simp only [Option.any_some, hk, decide_true, Bool.and_true, decide_eq_true_eq]
      omega
    · have hs : (lookup cmds i.1).isSome = false := by
        rw [Bool.eq_false_iff]; exact fun h => hk ((hmem i.1).mp h)
      rw [hs]
      simp [hk]
  · intro k hk
    obtain ⟨pre, post, h1, h2⟩ := hrun.ran k hk
    refine ⟨pre, post, h1, ?_⟩
    intro c hc hck r hr
    obtain ⟨c', hc', _, hreq', _⟩ := hext.2 k.name c (by rw [← hck]; exact lookup_mem hnd hc)
    obtain ⟨j, hj, hjr⟩ := h2 c' hc' r (by rw [hreq']; exact hr)
    rcases List.mem_append.mp hj with hj | hj
    · exact ⟨j, hj, hjr⟩
    · exfalso
      rw [List.mem_singleton] at hj
      subst hj
      exact hlater pre j post h1 c hc hck r hr j (by simp) hjr

/-- **C10** (accepted inputs). If parsing reports no error, every processed command was executed, the
commands were all known, and each was preceded by everything it requires. -/
theorem C10_accepted (sem : Semantics N W) (orig : List (Command N)) (hnd : (orig.map (·.name)).Nodup)
    (input : List (N × List Char)) (w : W) (s : PState N W) (h : parse sem orig input w = .ok s) :
    (∀ i ∈ input, ∃ c ∈ orig, c.name = i.1) ∧ s.ran = s.calls ∧
    (s.ran.filter (fun k => !k.dflt)).Perm (input.map (fun i => ⟨i.1, i.2 ++ [' '], false⟩)) ∧
    (∀ pre k post, s.ran = pre ++ k :: post → ∀ c ∈ orig, c.name = k.name → ∀ r ∈ c.requires,
      (∃ j ∈ pre, j.name = r) ∧ ∀ j ∈ k :: post, j.name ≠ r) := by
  obtain ⟨lev, n, cmds, hb, hm, rfl, hu, he⟩ := parse_ok h
  obtain ⟨hrun, hlog, hnd', hext⟩ := parseState_facts sem orig hnd lev n hm input w
  obtain ⟨o1, o2, o3⟩ := C10_order sem orig hnd lev n hb cmds hm input w
  obtain ⟨hr, hok⟩ := hrun.ok he
  have hknown : ∀ i ∈ input, ∃ c ∈ orig, c.name = i.1 := by
    intro i hi
    unfold unknownNames at hu
    rw [List.map_eq_nil_iff, List.filter_eq_nil_iff] at hu
    have := hu i hi
    rcases hl : lookup cmds i.1 with _ | c
    · rw [hl] at this; simp at this
    · obtain ⟨h1, h2⟩ := lookup_name hl
      have : i.1 ∈ orig.map (·.name) := by
        rw [← hext.1, ← h2]; exact List.mem_map_of_mem h1
      obtain ⟨d, hd, hd'⟩ := List.mem_map.mp this
      exact ⟨d, hd, hd'⟩
  refine ⟨hknown, hr, ?_, ?_⟩
  · rw [hr]
    refine o1.trans (List.Perm.of_eq ?_)
    congr 1
    rw [List.filter_eq_self]
    intro i hi
    obtain ⟨c, hc, hcn⟩ := hknown i hi
    simp only [decide_eq_true_eq]
    rw [← hcn]; exact List.mem_map_of_mem hc
  · intro pre k post hs c hc hck r hreq
    rw [hr] at hs
    have hl := o2 pre k post hs c hc hck r hreq
    refine ⟨?_, hl⟩
    obtain ⟨c', hc', _, hreq', _⟩ := hext.2 k.name c (by rw [← hck]; exact lookup_mem hnd hc)
    obtain ⟨j, hj, hjr⟩ := (hok pre k post hs c' hc').1 r (by rw [hreq']; exact hreq)
    rcases List.mem_append.mp hj with hj | hj
    · exact ⟨j, hj, hjr⟩
    · rw [List.mem_singleton] at hj
      subst hj
      exact absurd hjr (hl j (by simp))

/-- **C10** (defaults). A command with a default is called with the default exactly once if the input does not mention it, and otherwise
not; a command without default is never called unless mentioned. -/
theorem C10_defaults (sem : Semantics N W) (orig : List (Command N)) (hnd : (orig.map (·.name)).Nodup)
    (input : List (N × List Char)) (w : W) (s : PState N W) (h : parse sem orig input w = .ok s) (c : Command N) (hc : c ∈ orig) :
    s.ran.filter (fun k => k.name = c.name && k.dflt) = if c.hasDefault = true ∧ c.name ∉ input.map (·.1) then [⟨c.name, [], true⟩] else [] := by
  obtain ⟨hknown, hr, -, -⟩ := C10_accepted sem orig hnd input w s h
  obtain ⟨lev, n, cmds, hb, hm, rfl, hu, he⟩ := parse_ok h
  obtain ⟨_, _, hnd', hext⟩ := parseState_facts sem orig hnd lev n hm input w
  have hin : input.filter (fun i => (lookup cmds i.1).isSome) = input := by
    rw [List.filter_eq_self]
    intro i hi
    obtain ⟨d, hd, hdn⟩ := hknown i hi
    obtain ⟨d', hd', _⟩ := hext.2 d.name d (lookup_mem hnd hd)
    rw [← hdn, hd']; rfl
  have hfl := mutualForbids_flags hm
  have : flags c ∈ cmds.map flags := by rw [hfl]; exact List.mem_map_of_mem hc
  obtain ⟨c', hc', hf⟩ := List.mem_map.1 this
  simp only [flags, Prod.mk.injEq] at hf
  obtain ⟨l, hl1, hl2⟩ : ∃ l ≤ n, lev c.name = some l := by
    rcases C10_levels orig hnd with ⟨h, _⟩ | ⟨lev', n', h1, _, _, h2⟩
    · rw [hb] at h; cases h
    · rw [hb] at h1; cases h1
      obtain ⟨l, q1, q2, _⟩ := h2 c hc
      exact ⟨l, q1, q2⟩
  have key := defaults_passes hnd' sem lev input (fun i hi => by
    rw [← hin] at hi; simpa using (List.mem_filter.mp hi).2) w hc' (l := l) (by rw [hf.1]; exact hl2) (n + 1)
  rw [hr]
  unfold parseState
  rw [hin]
  unfold defaults at key
  rw [hf.1, hf.2.1] at key
  rw [key]
  have : l < n + 1 := by omega
  simp only [this, true_and]

/-- **C10** (parameters). In an accepted input no command that needs parameters is left without any. -/
theorem C10_parameters (sem : Semantics N W) (orig : List (Command N)) (hnd : (orig.map (·.name)).Nodup)
    (input : List (N × List Char)) (w : W) (s : PState N W) (h : parse sem orig input w = .ok s) (c : Command N) (hc : c ∈ orig) (hE : c.emptyParamError = true)
    (p : List Char) (hp : (c.name, p) ∈ input) : ∃ x ∈ p, x ∉ [' ', '\t', '\n', '\r'] := by
  obtain ⟨hknown, hr, -, -⟩ := C10_accepted sem orig hnd input w s h
  obtain ⟨lev, n, cmds, hb, hm, rfl, hu, he⟩ := parse_ok h
  obtain ⟨_, _, hnd', hext⟩ := parseState_facts sem orig hnd lev n hm input w
  have hfl := mutualForbids_flags hm
  have : flags c ∈ cmds.map flags := by rw [hfl]; exact List.mem_map_of_mem hc
  obtain ⟨c', hc', hf⟩ := List.mem_map.1 this
  simp only [flags, Prod.mk.injEq] at hf
  obtain ⟨l, hl1, hl2⟩ : ∃ l ≤ n, lev c.name = some l := by
    rcases C10_levels orig hnd with ⟨h, _⟩ | ⟨lev', n', h1, _, _, h2⟩
    · rw [hb] at h; cases h
    · rw [hb] at h1; cases h1
      obtain ⟨l, q1, q2, _⟩ := h2 c hc
      exact ⟨l, q1, q2⟩
  have hlk : lookup cmds c.name = some c' := by rw [← hf.1]; exact lookup_mem hnd' hc'
  exact passes_errors sem cmds lev _ w (n + 1) he (c.name, p) (List.mem_filter.2 ⟨hp, by simp [hlk]⟩) l hl2 (by omega) c' hlk (by rw [hf.2.2]; exact hE)

/-- **C11** Two inputs with the same commands whose relative order agrees within each level are processed
identically (same calls, same errors, same final state, same verdict). -/
theorem C11_reorder (sem : Semantics N W) (orig : List (Command N)) (in1 in2 : List (N × List Char)) (w : W)
    (hperm : in1.Perm in2)
    (hsame : ∀ lev n, buildLevels orig = .ok (lev, n) → ∀ l : Nat,
      in1.filter (fun i => lev i.1 = some l) = in2.filter (fun i => lev i.1 = some l)) :
    parse sem orig in1 w = parse sem orig in2 w := by
  unfold parse
  rcases hb : buildLevels orig with e | ⟨lev, n⟩
  · rfl
  · rw [FileIO.bind_ok]
    rcases hm : mutualForbids orig with e | cmds
    · rfl
    · have hst : parseState sem cmds lev n in1 w = parseState sem cmds lev n in2 w := by
        unfold parseState
        have : onePass sem cmds lev (in1.filter (fun i => (lookup cmds i.1).isSome)) =
            onePass sem cmds lev (in2.filter (fun i => (lookup cmds i.1).isSome)) := by
          funext s pass
          apply onePass_congr
          rw [List.filter_comm, List.filter_comm (l := in2)]
          rw [hsame lev n hb pass]
        rw [this]
      have hun : (unknownNames cmds in1 = []) ↔ (unknownNames cmds in2 = []) := by
        have : (unknownNames cmds in1).Perm (unknownNames cmds in2) := (hperm.filter _).map _
        constructor
        · intro h; rw [h] at this; exact this.nil_eq.symm
        · intro h; rw [h] at this; exact this.symm.nil_eq.symm
      dsimp only
      simp only [FileIO.bind_ok, hst]
      by_cases h2 : unknownNames cmds in2 = []
      · simp only [h2, hun.mpr h2]
      · have h1 : unknownNames cmds in1 ≠ [] := fun h => h2 (hun.mp h)
        simp only [h1, h2, false_and]

/-- **C11** In particular exchanging two neighbouring commands of different levels changes nothing. -/
theorem C11_swap (sem : Semantics N W) (orig : List (Command N)) (l1 l2 : List (N × List Char))
    (a b : N × List Char) (w : W)
    (hdiff : ∀ lev n, buildLevels orig = .ok (lev, n) → lev a.1 ≠ lev b.1) :
    parse sem orig (l1 ++ a :: b :: l2) w = parse sem orig (l1 ++ b :: a :: l2) w := by
  apply C11_reorder
  · exact (List.Perm.swap b a l2).append_left l1
  · intro lev n hb l
    have hd := hdiff lev n hb
    rw [List.filter_append, List.filter_append]
    congr 1
    by_cases h1 : lev a.1 = some l
    · have h2 : lev b.1 ≠ some l := fun h => hd (h1.trans h.symm)
      simp [h1, h2]
    · by_cases h2 : lev b.1 = some l
      · simp [h1, h2]
      · simp [h1, h2]

/-- **C12** (partial: commands of one section). If a command declares another of its own section forbidden and
both are in the input, parsing fails, whatever their order, multiplicity and parameters. The full statement has
no hypothesis on sections; it is false for the code (`C12_violation`). -/
theorem C12_same_section_partial (sem : Semantics N W) (orig : List (Command N))
    (hnd : (orig.map (·.name)).Nodup) (a b : Command N) (ha : a ∈ orig) (hb : b ∈ orig)
    (hforb : b.name ∈ a.forbids) (hsect : a.sect = b.sect) (input : List (N × List Char)) (w : W)
    (hia : a.name ∈ input.map (·.1)) (hib : b.name ∈ input.map (·.1)) (s : PState N W) :
    parse sem orig input w ≠ .ok s := by
  intro h
  obtain ⟨_, hran, hperm, _⟩ := C10_accepted sem orig hnd input w s h
  obtain ⟨lev, n, cmds, hbl, hm, rfl, hu, he⟩ := parse_ok h
  obtain ⟨hrun, hlog, hnd', hext⟩ := parseState_facts sem orig hnd lev n hm input w
  obtain ⟨_, hok⟩ := hrun.ok he
  have hcall : ∀ x, x ∈ input.map (·.1) → ∃ k ∈ (parseState sem cmds lev n input w).calls, k.name = x := by
    intro x hx
    obtain ⟨i, hi, rfl⟩ := List.mem_map.mp hx
    have : (⟨i.1, i.2 ++ [' '], false⟩ : Call N) ∈
        (parseState sem cmds lev n input w).ran.filter (fun k => !k.dflt) :=
      hperm.mem_iff.mpr (List.mem_map.mpr ⟨i, hi, rfl⟩)
    rw [hran] at this
    exact ⟨_, (List.mem_filter.mp this).1, rfl⟩
  obtain ⟨a', ea, _, _, fa⟩ := hext.2 a.name a (lookup_mem hnd ha)
  obtain ⟨b', eb, sb, _, fb⟩ := hext.2 b.name b (lookup_mem hnd hb)
  have hba : a.name ∈ b'.forbids :=
    (mutual_outer orig orig cmds hm).2 a ha a (lookup_mem hnd ha) b.name hforb b' eb (sb.trans hsect.symm)
  obtain ⟨ka, hka, hkan⟩ := hcall _ hia
  obtain ⟨kb, hkb, hkbn⟩ := hcall _ hib
  obtain ⟨pre, post, hsplit⟩ := List.append_of_mem hka
  rw [hsplit] at hkb
  rcases List.mem_append.mp hkb with hk | hk
  · -- b before a
    have := (hok pre ka post hsplit a' (by rw [hkan]; exact ea)).2.1 b.name (fa hforb) kb (by simp [hk])
    exact this hkbn
  · rcases List.mem_cons.mp hk with rfl | hk
    · have := (hok pre kb post hsplit a' (by rw [hkan]; exact ea)).2.1 b.name (fa hforb) kb (by simp)
      exact this hkbn
    · obtain ⟨p2, q2, hs2⟩ := List.append_of_mem hk
      have hsplit2 : (parseState sem cmds lev n input w).calls = (pre ++ ka :: p2) ++ kb :: q2 := by
        rw [hsplit, hs2]; simp
      have := (hok _ kb q2 hsplit2 b' (by rw [hkbn]; exact eb)).2.1 a.name hba ka (by simp)
      exact this hkan

/-- The commands of the witness: `phonon` (section phonon, phonon/commands.cpp:51,89) forbids
`fix-electron-density` (section jdftx, commands/elec_misc.cpp:199,208), which requires `spintype`. -/
def phononCmds : List (Command String) :=
  [{ name := "fix-electron-density", requires := ["spintype"], forbids := [] },
   { name := "phonon", requires := [], forbids := ["fix-electron-density"], sect := 1 },
   { name := "spintype", requires := [], forbids := [], hasDefault := true }]

/-- Commands that do nothing and never fail. -/
def nopSem : Semantics String Unit := ⟨fun _ _ w => (w, false), "ion", id⟩

/-- **C12** The full property is false: `phonon` forbids `fix-electron-density`, but both together are accepted
in either order. -/
theorem C12_violation :
    (∃ s, parse nopSem phononCmds [("phonon", []), ("fix-electron-density", [])] () = .ok s) ∧
    (∃ s, parse nopSem phononCmds [("fix-electron-density", []), ("phonon", [])] () = .ok s) ∧
    "fix-electron-density" ∈ (phononCmds[1]).forbids := by
  have key : ∀ i, ((parse nopSem phononCmds i ()).map (fun s => s.calls.length) = .ok 3) →
      ∃ s, parse nopSem phononCmds i () = .ok s := by
    intro i h
    rcases hp : parse nopSem phononCmds i () with e | s
    · rw [hp] at h; cases h
    · exact ⟨s, rfl⟩
  exact ⟨key _ (by decide), key _ (by decide), by decide⟩

/-- The hypotheses of the theorems are met, errors are found, order is by level. -/
example : ((parse nopSem phononCmds [("fix-electron-density", ['x']), ("phonon", [])] ()).map
    (fun s => s.calls.map (·.name))) = .ok ["phonon", "spintype", "fix-electron-density"] := by decide
example : parse nopSem
    [{ name := "a", requires := [], forbids := ["b"] }, { name := "b", requires := ["a"], forbids := [] }]
    [("a", []), ("b", [])] () = .error .die := by rfl
example : (buildLevels [(⟨"a", ["b"], [], 0, false, false, false⟩ : Command String), ⟨"b", ["a"], [], 0, false, false, false⟩]).map
    (fun p => p.2) = .error .die := by decide
example : (phononCmds.map (·.name)).Nodup := by decide

end Jdftx.Cmd
