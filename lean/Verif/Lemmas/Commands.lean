import Verif.Model.Commands
import Verif.Spec.Commands
import Verif.Lemmas.FileIO
import Mathlib.Data.List.Nodup
import Mathlib.Tactic.Linarith

namespace Jdftx.Cmd
open Jdftx.Spec

variable {N : Type} [DecidableEq N] {W : Type}

theorem lookup_isNone {cmds : List (Command N)} {n : N} :
    (lookup cmds n).isNone = true ↔ ∀ c ∈ cmds, c.name ≠ n := by
  unfold lookup
  simp [List.find?_eq_none]

theorem lookup_name {cmds : List (Command N)} {n : N} {c : Command N} (h : lookup cmds n = some c) :
    c ∈ cmds ∧ c.name = n := by
  unfold lookup at h
  exact ⟨List.mem_of_find?_eq_some h, by simpa using List.find?_some h⟩

theorem lookup_mem {cmds : List (Command N)} (hnd : (cmds.map (·.name)).Nodup) {c : Command N} (h : c ∈ cmds) :
    lookup cmds c.name = some c := by
  induction cmds with
  | nil => simp at h
  | cons d ds ih =>
    rw [List.map_cons, List.nodup_cons] at hnd
    rcases List.mem_cons.mp h with rfl | h
    · simp [lookup]
    · have hne : d.name ≠ c.name := fun e => hnd.1 (e ▸ List.mem_map_of_mem h)
      have := ih hnd.2 h
      unfold lookup at this ⊢
      rw [List.find?_cons]
      simp [hne, this]

/-! ### Levels -/

theorem checkRequires_cases (cmds : List (Command N)) (lev : Levels N) (n : Nat) : ∀ rs : List N,
    (checkRequires cmds lev n rs = .error .die ∧ ∃ r ∈ rs, ∀ c ∈ cmds, c.name ≠ r) ∨
    (checkRequires cmds lev n rs = .ok true ∧ ∀ r ∈ rs, (∃ c ∈ cmds, c.name = r) ∧ ∃ l < n, lev r = some l) ∨
    (checkRequires cmds lev n rs = .ok false ∧ ∃ r ∈ rs, (∃ c ∈ cmds, c.name = r) ∧ ∀ l, lev r = some l → n ≤ l)
  | [] => by right; left; exact ⟨rfl, by simp⟩
  | r :: rs => by
    unfold checkRequires
    by_cases hk : (lookup cmds r).isNone = true
    · left
      rw [if_pos hk]
      exact ⟨rfl, r, by simp, lookup_isNone.mp hk⟩
    · rw [if_neg hk]
      have hk' : ∃ c ∈ cmds, c.name = r := by
        rw [lookup_isNone] at hk; push Not at hk; exact hk
      rcases hl : lev r with _ | l
      · right; right
        exact ⟨rfl, r, by simp, hk', by simp [hl]⟩
      · simp only
        by_cases hge : l ≥ n
        · rw [if_pos hge]
          right; right
          refine ⟨rfl, r, by simp, hk', ?_⟩
          intro l' h; rw [hl] at h; cases h; exact hge
        · rw [if_neg hge]
          rcases checkRequires_cases cmds lev n rs with ⟨h1, q, h2, h3⟩ | ⟨h1, h2⟩ | ⟨h1, q, h2, h3⟩
          · left; exact ⟨h1, q, by simp [h2], h3⟩
          · right; left
            refine ⟨h1, ?_⟩
            intro q hq
            rcases List.mem_cons.mp hq with rfl | hq
            · exact ⟨hk', l, by omega, hl⟩
            · exact h2 q hq
          · right; right; exact ⟨h1, q, by simp [h2], h3⟩

/-- Outcome of a sweep started at levels `lev0` (all below `n`) when the part `todo` of the map is left and
the current levels are `lev`. -/
theorem sweep_cases (cmds : List (Command N)) (n : Nat) (lev0 : Levels N)
    (h0 : ∀ x l, lev0 x = some l → l < n) :
    ∀ (todo : List (Command N)) (lev : Levels N) (nP nR : Nat),
    (∀ x, lev x = lev0 x ∨ (lev0 x = none ∧ lev x = some n)) →
    (todo.map (·.name)).Nodup → (∀ c ∈ todo, lev c.name = lev0 c.name) →
    (sweep cmds n todo lev nP nR = .error .die ∧ ∃ c ∈ todo, ∃ r ∈ c.requires, ∀ d ∈ cmds, d.name ≠ r) ∨
    (∃ lev' nP' nR', sweep cmds n todo lev nP nR = .ok (lev', nP', nR') ∧
      (∀ x, (∀ c ∈ todo, c.name ≠ x) → lev' x = lev x) ∧
      (∀ c ∈ todo, ∀ l, lev0 c.name = some l → lev' c.name = some l) ∧
      (∀ c ∈ todo, lev0 c.name = none →
        (lev' c.name = some n ∧ ∀ r ∈ c.requires, (∃ d ∈ cmds, d.name = r) ∧ ∃ l < n, lev0 r = some l) ∨
        (lev' c.name = none ∧ ∃ r ∈ c.requires, (∃ d ∈ cmds, d.name = r) ∧ lev0 r = none)) ∧
      (nP ≤ nP' ∧ (nP' = nP → ∀ c ∈ todo, lev' c.name = lev0 c.name) ∧
        (nP' ≠ nP → ∃ c ∈ todo, lev0 c.name = none ∧ lev' c.name = some n)) ∧
      (nR ≤ nR' ∧ (nR' = nR → ∀ c ∈ todo, (lev' c.name).isSome) ∧
        (nR' ≠ nR → ∃ c ∈ todo, lev' c.name = none)))
  | [], lev, nP, nR, _, _, _ => by
    right
    exact ⟨lev, nP, nR, rfl, by simp, by simp, by simp, by simp, by simp⟩
  | c :: cs, lev, nP, nR, hlev, hnd, htodo => by
    rw [List.map_cons, List.nodup_cons] at hnd
    have hnotin : ∀ d ∈ cs, d.name ≠ c.name := fun d hd e => hnd.1 (e ▸ List.mem_map_of_mem hd)
    have hc0 := htodo c (by simp)
    unfold sweep
    rcases hl0 : lev0 c.name with _ | l
    · -- not yet processed
      rw [hl0] at hc0
      rw [if_pos (by rw [hc0]; rfl)]
      have hbelow : ∀ r l, lev r = some l → l < n → lev0 r = some l := by
        intro r l hr hlt
        rcases hlev r with h | ⟨_, h⟩
        · rw [← h]; exact hr
        · rw [h] at hr; cases hr; omega
      rcases checkRequires_cases cmds lev n c.requires with ⟨h1, q, h2, h3⟩ | ⟨h1, h2⟩ | ⟨h1, q, h2, h3, h4⟩
      · left; rw [h1]; exact ⟨rfl, c, by simp, q, h2, h3⟩
      · rw [h1]
        simp only
        have hlev' : ∀ x, Function.update lev c.name (some n) x = lev0 x ∨
            (lev0 x = none ∧ Function.update lev c.name (some n) x = some n) := by
          intro x
          by_cases hx : x = c.name
          · subst hx; right; exact ⟨hl0, by simp⟩
          · rw [Function.update_of_ne hx]; exact hlev x
        have htodo' : ∀ d ∈ cs, Function.update lev c.name (some n) d.name = lev0 d.name := by
          intro d hd
          rw [Function.update_of_ne (hnotin d hd)]
          exact htodo d (by simp [hd])
        rcases sweep_cases cmds n lev0 h0 cs _ (nP + 1) nR hlev' hnd.2 htodo' with
          ⟨g1, d, g2, g3⟩ | ⟨lev', nP', nR', g1, g2, g3, g4, ⟨g5, g6, g7⟩, g8, g9, g10⟩
        · left; exact ⟨g1, d, by simp [g2], g3⟩
        · right
          have hcn : lev' c.name = some n := by rw [g2 c.name hnotin]; simp
          refine ⟨lev', nP', nR', g1, ?_, ?_, ?_, ⟨by omega, ?_, ?_⟩, g8, ?_, ?_⟩
          · intro x hx
            rw [g2 x (fun d hd => hx d (by simp [hd])), Function.update_of_ne (Ne.symm (hx c (by simp)))]
          · intro d hd l hl
            rcases List.mem_cons.mp hd with rfl | hd
            · rw [hl0] at hl; cases hl
            · exact g3 d hd l hl
          · intro d hd hl
            rcases List.mem_cons.mp hd with rfl | hd
            · left
              refine ⟨hcn, fun r hr => ⟨(h2 r hr).1, ?_⟩⟩
              obtain ⟨l, hl1, hl2⟩ := (h2 r hr).2
              exact ⟨l, hl1, hbelow r l hl2 hl1⟩
            · exact g4 d hd hl
          · intro e; omega
          · intro _; exact ⟨c, by simp, hl0, hcn⟩
          · intro e d hd
            rcases List.mem_cons.mp hd with rfl | hd
            · simp [hcn]
            · exact g9 e d hd
          · intro e
            obtain ⟨d, hd, hd'⟩ := g10 e
            exact ⟨d, by simp [hd], hd'⟩
      · rw [h1]
        simp only
        rcases sweep_cases cmds n lev0 h0 cs lev nP (nR + 1) hlev hnd.2 (fun d hd => htodo d (by simp [hd])) with
          ⟨g1, d, g2, g3⟩ | ⟨lev', nP', nR', g1, g2, g3, g4, ⟨g5, g6, g7⟩, g8, g9, g10⟩
        · left; exact ⟨g1, d, by simp [g2], g3⟩
        · right
          have hcn : lev' c.name = none := by rw [g2 c.name hnotin]; exact hc0
          refine ⟨lev', nP', nR', g1, ?_, ?_, ?_, ⟨g5, ?_, ?_⟩, by omega, ?_, ?_⟩
          · intro x hx
            exact g2 x (fun d hd => hx d (by simp [hd]))
          · intro d hd l hl
            rcases List.mem_cons.mp hd with rfl | hd
            · rw [hl0] at hl; cases hl
            · exact g3 d hd l hl
          · intro d hd hl
            rcases List.mem_cons.mp hd with rfl | hd
            · right
              refine ⟨hcn, q, h2, h3, ?_⟩
              rcases hq : lev0 q with _ | lq
              · rfl
              · exfalso
                have hlt := h0 q lq hq
                rcases hlev q with h | ⟨h, _⟩
                · have := h4 lq (h.trans hq); omega
                · rw [hq] at h; cases h
            · exact g4 d hd hl
          · intro e d hd
            rcases List.mem_cons.mp hd with rfl | hd
            · rw [hcn, hl0]
            · exact g6 e d hd
          · intro e
            obtain ⟨d, hd, hd'⟩ := g7 e
            exact ⟨d, by simp [hd], hd'⟩
          · intro e; omega
          · intro _; exact ⟨c, by simp, hcn⟩
    · rw [hl0] at hc0
      have hlt := h0 _ _ hl0
      rw [if_neg (by rw [hc0]; simp; omega)]
      rcases sweep_cases cmds n lev0 h0 cs lev nP nR hlev hnd.2 (fun d hd => htodo d (by simp [hd])) with
        ⟨g1, d, g2, g3⟩ | ⟨lev', nP', nR', g1, g2, g3, g4, ⟨g5, g6, g7⟩, g8, g9, g10⟩
      · left; exact ⟨g1, d, by simp [g2], g3⟩
      · right
        have hcn : lev' c.name = some l := by rw [g2 c.name hnotin]; exact hc0
        refine ⟨lev', nP', nR', g1, ?_, ?_, ?_, ⟨g5, ?_, ?_⟩, g8, ?_, ?_⟩
        · intro x hx
          exact g2 x (fun d hd => hx d (by simp [hd]))
        · intro d hd l' hl'
          rcases List.mem_cons.mp hd with rfl | hd
          · rw [hcn]; rw [hl0] at hl'; exact hl'
          · exact g3 d hd l' hl'
        · intro d hd hl
          rcases List.mem_cons.mp hd with rfl | hd
          · rw [hl0] at hl; cases hl
          · exact g4 d hd hl
        · intro e d hd
          rcases List.mem_cons.mp hd with rfl | hd
          · rw [hcn, hl0]
          · exact g6 e d hd
        · intro e
          obtain ⟨d, hd, hd'⟩ := g7 e
          exact ⟨d, by simp [hd], hd'⟩
        · intro e d hd
          rcases List.mem_cons.mp hd with rfl | hd
          · simp [hcn]
          · exact g9 e d hd
        · intro e
          obtain ⟨d, hd, hd'⟩ := g10 e
          exact ⟨d, by simp [hd], hd'⟩

/-- Invariant at the start of pass `n`. -/
def LevInv (cmds : List (Command N)) (n : Nat) (lev : Levels N) : Prop :=
  (∀ x l, lev x = some l → l < n) ∧
  ∀ c ∈ cmds, ∀ l, lev c.name = some l →
    ∀ r ∈ c.requires, (∃ d ∈ cmds, d.name = r) ∧ ∃ l' < l, lev r = some l'

/-- Number of commands without a level. -/
def unproc (cmds : List (Command N)) (lev : Levels N) : Nat := cmds.countP (fun c => (lev c.name).isNone)

omit [DecidableEq N] in
theorem unproc_lt {cmds : List (Command N)} {lev lev' : Levels N}
    (hmono : ∀ c ∈ cmds, lev' c.name = none → lev c.name = none)
    {c : Command N} (hc : c ∈ cmds) (h1 : lev c.name = none) (h2 : lev' c.name ≠ none) :
    unproc cmds lev' < unproc cmds lev := by
  unfold unproc
  induction cmds with
  | nil => simp at hc
  | cons d ds ih =>
    rw [List.countP_cons, List.countP_cons]
    have hle : ds.countP (fun c => (lev' c.name).isNone) ≤ ds.countP (fun c => (lev c.name).isNone) := by
      apply List.countP_mono_left
      intro x hx hn
      simp only [Option.isNone_iff_eq_none] at hn ⊢
      exact hmono x (by simp [hx]) hn
    rcases List.mem_cons.mp hc with rfl | hc
    · simp only [h1, Option.isNone_none, if_true]
      have : ¬ ((lev' c.name).isNone = true) := by simpa using h2
      rw [if_neg this]; omega
    · have := ih (fun x hx => hmono x (by simp [hx])) hc
      have hd := hmono d (by simp)
      split <;> split <;> rename_i h3 h4 <;> simp only [Option.isNone_iff_eq_none] at h3 h4 <;> first | omega | skip
      exact absurd (hd h3) h4

theorem passes_cases (cmds : List (Command N)) (hnd : (cmds.map (·.name)).Nodup) :
    ∀ (fuel n : Nat) (lev : Levels N), LevInv cmds n lev → unproc cmds lev < fuel →
    (passes cmds fuel n lev = .error .die ∧ ¬ (AllKnown cmds ∧ Acyclic cmds)) ∨
    (∃ lev' m, passes cmds fuel n lev = .ok (lev', m) ∧ LevInv cmds (m + 1) lev' ∧
      ∀ c ∈ cmds, (lev' c.name).isSome)
  | 0, n, lev, _, hf => by omega
  | fuel + 1, n, lev, hinv, hf => by
    unfold passes
    rcases sweep_cases cmds n lev hinv.1 cmds lev 0 0 (fun x => Or.inl rfl) hnd (fun c _ => rfl) with
      ⟨h1, c, h2, r, h3, h4⟩ | ⟨lev', nP, nR, h1, h2, h3, h4, ⟨_, h5, h6⟩, _, h7, h8⟩
    · left
      rw [h1]
      refine ⟨rfl, fun hk => ?_⟩
      obtain ⟨d, hd, hd'⟩ := hk.1 c h2 r h3
      exact h4 d hd hd'
    · rw [h1]
      simp only
      have hout : ∀ x, lev' x = lev x ∨ (lev x = none ∧ lev' x = some n) := by
        intro x
        by_cases hx : ∃ c ∈ cmds, c.name = x
        · obtain ⟨c, hc, rfl⟩ := hx
          rcases hl : lev c.name with _ | l
          · rcases h4 c hc hl with h | h
            · exact Or.inr ⟨rfl, h.1⟩
            · exact Or.inl h.1
          · exact Or.inl (h3 c hc l hl)
        · push Not at hx
          exact Or.inl (h2 x hx)
      have hinv' : LevInv cmds (n + 1) lev' := by
        constructor
        · intro x l hx
          rcases hout x with h | ⟨_, h⟩
          · rw [h] at hx; have := hinv.1 x l hx; omega
          · rw [h] at hx; cases hx; omega
        · intro c hc l hl r hr
          have keep : ∀ l', lev r = some l' → lev' r = some l' := by
            intro l' hl'
            rcases hout r with h | ⟨h, _⟩
            · rw [h]; exact hl'
            · rw [h] at hl'; cases hl'
          rcases hl0 : lev c.name with _ | l0
          · rcases h4 c hc hl0 with h | h
            · rw [h.1] at hl
              cases hl
              obtain ⟨g1, l', g2, g3⟩ := h.2 r hr
              exact ⟨g1, l', g2, keep l' g3⟩
            · rw [h.1] at hl; cases hl
          · rw [h3 c hc l0 hl0] at hl
            obtain rfl : l0 = l := by simpa using hl
            obtain ⟨g1, l', g2, g3⟩ := hinv.2 c hc l0 hl0 r hr
            exact ⟨g1, l', g2, keep l' g3⟩
      by_cases hR : nR = 0
      · rw [if_pos hR]
        right
        exact ⟨lev', n, rfl, hinv', h7 hR⟩
      · rw [if_neg hR]
        by_cases hP : nP = 0
        · rw [if_pos hP]
          left
          refine ⟨rfl, fun ⟨_, rank, hrank⟩ => ?_⟩
          -- a command of smallest rank among the unprocessed ones has an unprocessed requirement
          have step : ∀ k, ∀ c ∈ cmds, lev' c.name = none → rank c.name = k → False := by
            intro k
            induction k using Nat.strong_induction_on with
            | _ k ih =>
              intro c hc hn hk
              have hn0 : lev c.name = none := by rw [← h5 hP c hc]; exact hn
              rcases h4 c hc hn0 with h | ⟨_, r, hr, ⟨d, hd, hdr⟩, hr0⟩
              · rw [h.1] at hn; cases hn
              · have hlt := hrank c hc r hr
                refine ih (rank r) (by omega) d hd ?_ (by rw [hdr])
                rw [h5 hP d hd, hdr]; exact hr0
          obtain ⟨c, hc, hcn⟩ := h8 hR
          exact step _ c hc hcn rfl
        · rw [if_neg hP]
          obtain ⟨c, hc, hc1, hc2⟩ := h6 hP
          have hlt : unproc cmds lev' < unproc cmds lev := by
            refine unproc_lt ?_ hc hc1 (by rw [hc2]; simp)
            intro d hd hdn
            rcases hout d.name with h | ⟨h, _⟩
            · rw [← h]; exact hdn
            · exact h
          exact passes_cases cmds hnd fuel (n + 1) lev' hinv' (by omega)

/-! ### Mutual forbids -/

/-- `cmds'` is `cmds` with possibly more forbids. -/
def Ext (cmds cmds' : List (Command N)) : Prop :=
  cmds'.map (·.name) = cmds.map (·.name) ∧
  ∀ n c, lookup cmds n = some c → ∃ c', lookup cmds' n = some c' ∧ c'.sect = c.sect ∧
    c'.requires = c.requires ∧ c.forbids ⊆ c'.forbids

theorem Ext.refl (cmds : List (Command N)) : Ext cmds cmds :=
  ⟨rfl, fun _ c h => ⟨c, h, rfl, rfl, fun _ h => h⟩⟩

theorem Ext.trans {a b c : List (Command N)} (h1 : Ext a b) (h2 : Ext b c) : Ext a c := by
  refine ⟨h2.1.trans h1.1, fun n x hx => ?_⟩
  obtain ⟨y, y1, y2, y3, y4⟩ := h1.2 n x hx
  obtain ⟨z, z1, z2, z3, z4⟩ := h2.2 n y y1
  exact ⟨z, z1, z2.trans y2, z3.trans y3, fun _ h => z4 (y4 h)⟩

theorem lookup_map {g : Command N → Command N} (hg : ∀ c, (g c).name = c.name) (cmds : List (Command N)) (n : N) :
    lookup (cmds.map g) n = (lookup cmds n).map g := by
  unfold lookup
  rw [List.find?_map]
  congr 1
  congr 1
  funext c
  simp [hg]

theorem addForbid_ext (ci : Command N) (f : N) (cmds : List (Command N)) :
    Ext cmds (addForbid ci f cmds) ∧
    ∀ d, lookup (addForbid ci f cmds) f = some d → d.sect = ci.sect → ci.name ∈ d.forbids := by
  have hg : ∀ c : Command N, (if c.name = f ∧ ci.name ∉ c.forbids ∧ c.sect = ci.sect
    then { c with forbids := c.forbids ++ [ci.name] } else c).name = c.name := by
    intro c; split <;> rfl
  unfold addForbid
  refine ⟨⟨?_, ?_⟩, ?_⟩
  · rw [List.map_map]; congr 1; funext c; exact hg c
  · intro n c hc
    rw [lookup_map hg, hc]
    refine ⟨_, rfl, ?_, ?_, ?_⟩
    · dsimp only; split <;> rfl
    · dsimp only; split <;> rfl
    · dsimp only; split
      · intro x hx; simp [hx]
      · exact fun _ h => h
  · intro d hd hs
    rw [lookup_map hg] at hd
    rcases hl : lookup cmds f with _ | c
    · rw [hl] at hd; cases hd
    · rw [hl] at hd
      simp only [Option.map_some, Option.some.injEq] at hd
      have hn := (lookup_name hl).2
      by_cases hc : c.name = f ∧ ci.name ∉ c.forbids ∧ c.sect = ci.sect
      · rw [if_pos hc] at hd; rw [← hd]; simp
      · rw [if_neg hc] at hd
        subst hd
        by_contra hni
        exact hc ⟨hn, hni, hs⟩

theorem mutual_inner (c : Command N) : ∀ (fs : List N) (cmds cmds' : List (Command N)),
    fs.foldlM (fun cmds f => if (lookup cmds f).isNone then (.error .die : Res _) else .ok (addForbid c f cmds))
      cmds = .ok cmds' →
    Ext cmds cmds' ∧ ∀ f ∈ fs, ∀ d, lookup cmds' f = some d → d.sect = c.sect → c.name ∈ d.forbids
  | [], cmds, cmds', h => by cases h; exact ⟨Ext.refl _, by simp⟩
  | f :: fs, cmds, cmds', h => by
    rw [List.foldlM_cons] at h
    split at h
    · cases h
    · rename_i hk
      obtain ⟨h1, h2⟩ := mutual_inner c fs _ _ h
      obtain ⟨g1, g2⟩ := addForbid_ext c f cmds
      refine ⟨g1.trans h1, ?_⟩
      intro f' hf' d hd hs
      rcases List.mem_cons.mp hf' with rfl | hf'
      · rcases hl : lookup (addForbid c f' cmds) f' with _ | d0
        · exfalso
          have : (lookup cmds' f').isNone = true := by
            rw [lookup_isNone]
            have hn : (lookup (addForbid c f' cmds) f').isNone = true := by rw [hl]; rfl
            rw [lookup_isNone] at hn
            have hmap := h1.1
            intro x hx hxe
            have : x.name ∈ (addForbid c f' cmds).map (·.name) := by
              rw [← hmap]; exact List.mem_map_of_mem hx
            obtain ⟨y, hy, hye⟩ := List.mem_map.mp this
            exact hn y hy (hye.trans hxe)
          rw [hd] at this; cases this
        · obtain ⟨d', e1, e2, _, e4⟩ := h1.2 f' d0 hl
          rw [hd] at e1; cases e1
          exact e4 (g2 d0 hl (e2.symm.trans hs))
      · exact h2 f' hf' d hd hs

theorem mutual_outer : ∀ (todo cmds cmds' : List (Command N)), todo.foldlM mutualOne cmds = .ok cmds' →
    Ext cmds cmds' ∧ ∀ t ∈ todo, ∀ c, lookup cmds t.name = some c → ∀ f ∈ c.forbids, ∀ d,
      lookup cmds' f = some d → d.sect = c.sect → c.name ∈ d.forbids
  | [], cmds, cmds', h => by cases h; exact ⟨Ext.refl _, by simp⟩
  | t :: ts, cmds, cmds', h => by
    rw [List.foldlM_cons] at h
    rcases hm : mutualOne cmds t with e | cmds1
    · rw [hm] at h; cases h
    · rw [hm] at h
      obtain ⟨h1, h2⟩ := mutual_outer ts cmds1 cmds' h
      have hext : Ext cmds cmds1 ∧ ∀ c, lookup cmds t.name = some c → ∀ f ∈ c.forbids, ∀ d,
          lookup cmds1 f = some d → d.sect = c.sect → c.name ∈ d.forbids := by
        unfold mutualOne at hm
        rcases hl : lookup cmds t.name with _ | c
        · rw [hl] at hm; cases hm
          exact ⟨Ext.refl _, fun c hc => by cases hc⟩
        · rw [hl] at hm
          obtain ⟨g1, g2⟩ := mutual_inner c c.forbids cmds cmds1 hm
          refine ⟨g1, fun c' hc' => ?_⟩
          cases hc'
          exact g2
      refine ⟨hext.1.trans h1, ?_⟩
      intro t' ht' c hc f hf d hd hs
      rcases List.mem_cons.mp ht' with rfl | ht'
      · -- established at once, kept later
        have hback : ∃ d0, lookup cmds1 f = some d0 := by
          obtain ⟨dm, dn⟩ := lookup_name hd
          have : f ∈ cmds1.map (·.name) := by
            rw [← h1.1, ← dn]; exact List.mem_map_of_mem dm
          obtain ⟨y, hy, hye⟩ := List.mem_map.mp this
          rcases hq : lookup cmds1 f with _ | d0
          · exfalso
            have hn : (lookup cmds1 f).isNone = true := by rw [hq]; rfl
            exact lookup_isNone.mp hn y hy hye
          · exact ⟨d0, rfl⟩
        obtain ⟨d0, hd0⟩ := hback
        obtain ⟨d', e1, e2, _, e4⟩ := h1.2 f d0 hd0
        rw [hd] at e1; cases e1
        exact e4 (hext.2 c hc f hf d0 hd0 (e2.symm.trans hs))
      · obtain ⟨c1, e1, e2, _, e4⟩ := hext.1.2 t'.name c hc
        have := h2 t' ht' c1 e1 f (e4 hf) d hd (hs.trans e2.symm)
        rw [(lookup_name e1).2] at this
        rw [(lookup_name hc).2]
        exact this

/-! ### Processing -/

/-- What error-free processing guarantees for a call `k` preceded by `pre`. -/
def CallOk (cmds : List (Command N)) (pre : List (Call N)) (k : Call N) : Prop :=
  ∀ c, lookup cmds k.name = some c →
    (∀ r ∈ c.requires, ∃ j ∈ pre ++ [k], j.name = r) ∧
    (∀ f ∈ c.forbids, ∀ j ∈ pre ++ [k], j.name ≠ f) ∧
    (c.allowMultiple = false → ∀ j ∈ pre, j.name ≠ k.name)

/-- Requirements of a call `k` preceded by `pre` have occurred. -/
def ReqOk (cmds : List (Command N)) (pre : List (Call N)) (k : Call N) : Prop :=
  ∀ c, lookup cmds k.name = some c → ∀ r ∈ c.requires, ∃ j ∈ pre ++ [k], j.name = r

structure RunInv (cmds : List (Command N)) (s : PState N W) : Prop where
  enc : ∀ x, s.encountered x = s.calls.countP (fun k => k.name = x)
  ok : s.errors = [] → s.ran = s.calls ∧ ∀ pre k post, s.calls = pre ++ k :: post → CallOk cmds pre k
  ran : ∀ k ∈ s.ran, ∃ pre post, s.calls = pre ++ k :: post ∧ ReqOk cmds pre k

omit [DecidableEq N] in
theorem split_snoc {α : Type} {l pre post : List α} {x k : α} (h : l ++ [x] = pre ++ k :: post) :
    (post = [] ∧ pre = l ∧ k = x) ∨ ∃ post', post = post' ++ [x] ∧ l = pre ++ k :: post' := by
  rcases List.eq_nil_or_concat post with rfl | ⟨post', y, rfl⟩
  · left
    have h' : l ++ [x] = pre ++ [k] := h
    have := List.append_inj' h' rfl
    exact ⟨rfl, this.1.symm, by simpa using this.2.symm⟩
  · right
    have h' : l ++ [x] = (pre ++ k :: post') ++ [y] := by rw [h]; simp
    have := List.append_inj' h' rfl
    refine ⟨post', ?_, this.1⟩
    have hx : x = y := by simpa using this.2
    rw [hx]; simp

theorem countP_ne_zero {l : List (Call N)} {x : N} :
    l.countP (fun k => k.name = x) ≠ 0 ↔ ∃ j ∈ l, j.name = x := by
  rw [← Nat.pos_iff_ne_zero, List.countP_pos_iff]
  simp

/-- Adding errors keeps the invariant. -/
theorem RunInv.addErr {cmds : List (Command N)} {s : PState N W} (h : RunInv cmds s) (e : List N) :
    RunInv cmds { s with errors := s.errors ++ e } :=
  ⟨h.enc, fun he => h.ok (List.append_eq_nil_iff.mp he).1, h.ran⟩

theorem safeProcess_inv {cmds : List (Command N)} (sem : Semantics N W) {c : Command N}
    (hc : lookup cmds c.name = some c) (params : List Char) (dflt : Bool) {s : PState N W} (h : RunInv cmds s) :
    RunInv cmds (safeProcess sem c params dflt s) ∧
    (safeProcess sem c params dflt s).calls = s.calls ++ [⟨c.name, params, dflt⟩] ∧
    ∃ e, (safeProcess sem c params dflt s).errors = s.errors ++ e := by
  have henc : ∀ x, Function.update s.encountered c.name (s.encountered c.name + 1) x =
      (s.calls ++ [(⟨c.name, params, dflt⟩ : Call N)]).countP (fun k => k.name = x) := by
    intro x
    rw [List.countP_append]
    by_cases hx : x = c.name
    · subst hx; simp [h.enc]
    · rw [Function.update_of_ne hx, h.enc]
      simp [Ne.symm hx]
  have hran' : ∀ k ∈ s.ran, ∃ pre post, s.calls ++ [(⟨c.name, params, dflt⟩ : Call N)] = pre ++ k :: post ∧
      ReqOk cmds pre k := by
    intro k hk
    obtain ⟨pre, post, h1, h2⟩ := h.ran k hk
    exact ⟨pre, post ++ [⟨c.name, params, dflt⟩], by rw [h1]; simp, h2⟩
  unfold safeProcess
  dsimp only
  split
  · refine ⟨⟨henc, fun he => ?_, hran'⟩, rfl, [c.name], rfl⟩
    simp at he
  · rename_i hreq
    have hreq' : ∀ r ∈ c.requires, ∃ j ∈ s.calls ++ [(⟨c.name, params, dflt⟩ : Call N)], j.name = r := by
      intro r hr
      rw [← countP_ne_zero, ← henc]
      intro h0
      apply hreq
      rw [List.any_eq_true]
      exact ⟨r, hr, by simpa using h0⟩
    split
    · refine ⟨⟨henc, fun he => ?_, hran'⟩, rfl, [c.name], rfl⟩
      simp at he
    · rename_i hmult
      refine ⟨⟨henc, ?_, ?_⟩, rfl, _, by simp only [List.append_assoc]; rfl⟩
      · intro he
        simp only [List.append_eq_nil_iff, List.map_eq_nil_iff] at he
        obtain ⟨⟨he1, he2⟩, he3⟩ := he
        obtain ⟨g1, g2⟩ := h.ok he1
        refine ⟨by rw [← g1], ?_⟩
        intro pre k post hsplit
        rcases split_snoc hsplit with ⟨rfl, rfl, rfl⟩ | ⟨post', rfl, hs⟩
        · intro c' hc'
          simp only at hc'
          rw [hc] at hc'
          cases hc'
          refine ⟨hreq', ?_, ?_⟩
          · intro f hf j hj hje
            rw [List.filter_eq_nil_iff] at he2
            have := he2 f hf
            simp only [ne_eq, decide_eq_true_eq, not_not] at this
            rw [henc] at this
            exact (countP_ne_zero.mpr ⟨j, hj, hje⟩) this
          · intro ham j hj hje
            simp only [ham, Bool.not_false, Bool.true_and, decide_eq_true_eq] at hmult
            rw [henc, List.countP_append] at hmult
            have : s.calls.countP (fun k => k.name = c.name) ≠ 0 := countP_ne_zero.mpr ⟨j, hj, hje⟩
            apply hmult
            have h1 : [(⟨c.name, params, dflt⟩ : Call N)].countP (fun k => k.name = c.name) = 1 := by simp
            omega
        · exact g2 pre k post' hs
      · intro k hk
        simp only [List.mem_append, List.mem_singleton] at hk
        rcases hk with hk | rfl
        · exact hran' k hk
        · refine ⟨s.calls, [], rfl, ?_⟩
          intro c' hc'
          simp only at hc'
          rw [hc] at hc'
          cases hc'
          exact hreq'

/-- Relation between states: `t` extends `s` by calls satisfying `P`. -/
def Extends (P : Call N → Prop) (s t : PState N W) : Prop :=
  ∃ new, t.calls = s.calls ++ new ∧ ∀ k ∈ new, P k

omit [DecidableEq N] in
theorem Extends.refl (P : Call N → Prop) (s : PState N W) : Extends P s s := ⟨[], by simp, by simp⟩

omit [DecidableEq N] in
theorem Extends.trans {P : Call N → Prop} {s t u : PState N W} (h1 : Extends P s t) (h2 : Extends P t u) :
    Extends P s u := by
  obtain ⟨n1, e1, p1⟩ := h1
  obtain ⟨n2, e2, p2⟩ := h2
  refine ⟨n1 ++ n2, by rw [e2, e1, List.append_assoc], ?_⟩
  intro k hk
  rcases List.mem_append.mp hk with hk | hk
  · exact p1 k hk
  · exact p2 k hk

theorem inputStep_spec {cmds : List (Command N)} (sem : Semantics N W) (lev : Levels N) (pass : Nat)
    (i : N × List Char) {s : PState N W} (h : RunInv cmds s) (hk : (lookup cmds i.1).isSome) :
    RunInv cmds (inputStep sem cmds lev pass s i) ∧
    (inputStep sem cmds lev pass s i).calls =
      s.calls ++ if lev i.1 = some pass then [⟨i.1, i.2 ++ [' '], false⟩] else [] := by
  unfold inputStep
  split
  · rcases hl : lookup cmds i.1 with _ | c
    · rw [hl] at hk; cases hk
    · have hn := (lookup_name hl).2
      dsimp only
      have hc : lookup cmds c.name = some c := by rw [hn]; exact hl
      split
      · obtain ⟨h1, h2, _⟩ := safeProcess_inv sem hc (i.2 ++ [' ']) false (h.addErr [c.name])
        exact ⟨h1, by rw [h2, hn]⟩
      · obtain ⟨h1, h2, _⟩ := safeProcess_inv sem hc (i.2 ++ [' ']) false h
        exact ⟨h1, by rw [h2, hn]⟩
  · exact ⟨h, by simp⟩

theorem defaultStep_spec {cmds : List (Command N)} (sem : Semantics N W) (lev : Levels N) (pass : Nat)
    {c : Command N} {s : PState N W} (h : RunInv cmds s) (hc : lookup cmds c.name = some c) :
    RunInv cmds (defaultStep sem lev pass s c) ∧
    Extends (fun k => lev k.name = some pass ∧ k.dflt = true) s (defaultStep sem lev pass s c) := by
  unfold defaultStep
  split
  · rename_i hp
    split
    · obtain ⟨h1, h2, _⟩ := safeProcess_inv sem hc [] true h
      exact ⟨h1, _, h2, by simp [hp]⟩
    · exact ⟨h, Extends.refl _ _⟩
  · exact ⟨h, Extends.refl _ _⟩

theorem inputs_spec {cmds : List (Command N)} (sem : Semantics N W) (lev : Levels N) (pass : Nat) :
    ∀ (input : List (N × List Char)) (s : PState N W), RunInv cmds s →
    (∀ i ∈ input, (lookup cmds i.1).isSome) →
    RunInv cmds (input.foldl (inputStep sem cmds lev pass) s) ∧
    (input.foldl (inputStep sem cmds lev pass) s).calls = s.calls ++
      (input.filter (fun i => lev i.1 = some pass)).map (fun i => ⟨i.1, i.2 ++ [' '], false⟩)
  | [], s, h, _ => ⟨h, by simp⟩
  | i :: is, s, h, hk => by
    rw [List.foldl_cons]
    obtain ⟨h1, h2⟩ := inputStep_spec sem lev pass i h (hk i (by simp))
    obtain ⟨g1, g2⟩ := inputs_spec sem lev pass is _ h1 (fun j hj => hk j (by simp [hj]))
    refine ⟨g1, ?_⟩
    rw [g2, h2]
    by_cases hp : lev i.1 = some pass
    · simp [hp]
    · simp [hp]

theorem defaults_spec {cmds : List (Command N)} (sem : Semantics N W) (lev : Levels N) (pass : Nat) :
    ∀ (cs : List (Command N)) (s : PState N W), RunInv cmds s → (∀ c ∈ cs, lookup cmds c.name = some c) →
    RunInv cmds (cs.foldl (defaultStep sem lev pass) s) ∧
    Extends (fun k => lev k.name = some pass ∧ k.dflt = true) s (cs.foldl (defaultStep sem lev pass) s)
  | [], s, h, _ => ⟨h, Extends.refl _ _⟩
  | c :: cs, s, h, hc => by
    rw [List.foldl_cons]
    obtain ⟨h1, h2⟩ := defaultStep_spec sem lev pass h (hc c (by simp))
    obtain ⟨g1, g2⟩ := defaults_spec sem lev pass cs _ h1 (fun d hd => hc d (by simp [hd]))
    exact ⟨g1, h2.trans g2⟩

/-- The calls of one pass: the input commands of that level in input order, then defaults of that level. -/
theorem onePass_spec {cmds : List (Command N)} (hnd : (cmds.map (·.name)).Nodup) (sem : Semantics N W)
    (lev : Levels N) (input : List (N × List Char)) (hk : ∀ i ∈ input, (lookup cmds i.1).isSome)
    (s : PState N W) (h : RunInv cmds s) (pass : Nat) :
    RunInv cmds (onePass sem cmds lev input s pass) ∧
    ∃ new, (onePass sem cmds lev input s pass).calls = s.calls ++
      (input.filter (fun i => lev i.1 = some pass)).map (fun i => ⟨i.1, i.2 ++ [' '], false⟩) ++ new ∧
      ∀ k ∈ new, lev k.name = some pass ∧ k.dflt = true := by
  obtain ⟨h1, h2⟩ := inputs_spec sem lev pass input s h hk
  obtain ⟨g1, new, g2, g3⟩ := defaults_spec sem lev pass cmds _ h1 (fun c hc => lookup_mem hnd hc)
  unfold onePass
  dsimp only
  split
  · exact ⟨⟨g1.enc, g1.ok, g1.ran⟩, new, by rw [g2, h2], g3⟩
  · exact ⟨g1, new, by rw [g2, h2], g3⟩

/-- Facts about the log of calls after passes `0 .. n-1`. -/
structure LogInv (lev : Levels N) (input : List (N × List Char)) (n : Nat) (calls : List (Call N)) : Prop where
  below : ∀ k ∈ calls, ∃ l < n, lev k.name = some l
  sorted : calls.Pairwise (fun a b => ∀ la lb, lev a.name = some la → lev b.name = some lb → la ≤ lb)
  inputs : (calls.filter (fun k => !k.dflt)).Perm
    ((input.filter (fun i => (lev i.1).any (· < n))).map (fun i => ⟨i.1, i.2 ++ [' '], false⟩))

theorem parse_passes {cmds : List (Command N)} (hnd : (cmds.map (·.name)).Nodup) (sem : Semantics N W)
    (lev : Levels N) (input : List (N × List Char)) (hk : ∀ i ∈ input, (lookup cmds i.1).isSome) (w : W) :
    ∀ n, RunInv cmds ((List.range n).foldl (onePass sem cmds lev input) ⟨fun _ => 0, [], w, [], []⟩) ∧
      LogInv lev input n ((List.range n).foldl (onePass sem cmds lev input) ⟨fun _ => 0, [], w, [], []⟩).calls
  | 0 => by
    refine ⟨⟨fun x => rfl, fun _ => ⟨rfl, ?_⟩, by simp⟩, ⟨by simp, List.Pairwise.nil, ?_⟩⟩
    · intro pre k post h
      simp at h
    · have : input.filter (fun i => (lev i.1).any (· < 0)) = [] := by
        rw [List.filter_eq_nil_iff]
        intro i _
        cases lev i.1 <;> simp
      rw [this]; simp
  | n + 1 => by
    obtain ⟨h1, h2⟩ := parse_passes hnd sem lev input hk w n
    rw [List.range_succ, List.foldl_append, List.foldl_cons, List.foldl_nil]
    obtain ⟨g1, new, g2, g3⟩ := onePass_spec hnd sem lev input hk _ h1 n
    refine ⟨g1, ?_⟩
    rw [g2, List.append_assoc]
    set calls := ((List.range n).foldl (onePass sem cmds lev input) ⟨fun _ => 0, [], w, [], []⟩).calls
    set ins := (input.filter (fun i => lev i.1 = some n)).map (fun i => (⟨i.1, i.2 ++ [' '], false⟩ : Call N))
    have hnew : ∀ k ∈ ins ++ new, lev k.name = some n := by
      intro k hk
      rcases List.mem_append.mp hk with hk | hk
      · obtain ⟨i, hi, rfl⟩ := List.mem_map.mp hk
        simpa using (List.mem_filter.mp hi).2
      · exact (g3 k hk).1
    refine ⟨?_, ?_, ?_⟩
    · intro k hk
      rcases List.mem_append.mp hk with hk | hk
      · obtain ⟨l, hl, hl'⟩ := h2.below k hk
        exact ⟨l, by omega, hl'⟩
      · exact ⟨n, by omega, hnew k hk⟩
    · rw [List.pairwise_append]
      refine ⟨h2.sorted, ?_, ?_⟩
      · apply List.pairwise_of_forall_mem_list
        intro a ha b hb la lb hla hlb
        rw [hnew a ha] at hla
        rw [hnew b hb] at hlb
        cases hla; cases hlb; exact le_refl _
      · intro a ha b hb la lb hla hlb
        obtain ⟨l, hl, hl'⟩ := h2.below a ha
        rw [hl'] at hla; rw [hnew b hb] at hlb
        cases hla; cases hlb; omega
    · rw [List.filter_append, List.filter_append]
      have e1 : new.filter (fun k => !k.dflt) = [] := by
        rw [List.filter_eq_nil_iff]
        intro k hk
        simp [(g3 k hk).2]
      have e2 : ins.filter (fun k => !k.dflt) = ins := by
        rw [List.filter_eq_self]
        intro k hk
        obtain ⟨i, _, rfl⟩ := List.mem_map.mp hk
        rfl
      rw [e1, e2, List.append_nil]
      refine (h2.inputs.append_right ins).trans ?_
      rw [← List.map_append]
      refine List.Perm.map _ ?_
      have key := List.filter_append_perm (fun i : N × List Char => (lev i.1).any (· < n))
        (input.filter (fun i => (lev i.1).any (· < n + 1)))
      rw [List.filter_filter, List.filter_filter] at key
      have f1 : input.filter (fun a => (lev a.1).any (· < n) && (lev a.1).any (· < n + 1)) =
          input.filter (fun a => (lev a.1).any (· < n)) := by
        congr 1; funext a
        cases lev a.1 with
        | none => rfl
        | some l =>
          simp only [Option.any_some]
          by_cases h : l < n
          · simp [h, Nat.lt_succ_of_lt h]
          · simp [h]
      have f2 : input.filter (fun a => (!(lev a.1).any (· < n)) && (lev a.1).any (· < n + 1)) =
          input.filter (fun a => lev a.1 = some n) := by
        congr 1; funext a
        cases lev a.1 with
        | none => simp
        | some l =>
          simp only [Option.any_some, Option.some.injEq]
          by_cases h : l < n
          · simp [h]; omega
          · by_cases h' : l = n
            · simp [h']
            · have : ¬ l < n + 1 := by omega
              simp [h', this]
      rw [f1, f2] at key
      exact key

/-! ### Reordering -/

theorem inputs_filter (sem : Semantics N W) (cmds : List (Command N)) (lev : Levels N) (pass : Nat) :
    ∀ (input : List (N × List Char)) (s : PState N W),
    input.foldl (inputStep sem cmds lev pass) s =
      (input.filter (fun i => lev i.1 = some pass)).foldl (inputStep sem cmds lev pass) s
  | [], s => rfl
  | i :: is, s => by
    rw [List.foldl_cons, inputs_filter sem cmds lev pass is]
    by_cases hp : lev i.1 = some pass
    · simp [hp]
    · have : inputStep sem cmds lev pass s i = s := by unfold inputStep; rw [if_neg hp]
      rw [this]; simp [hp]

theorem onePass_congr (sem : Semantics N W) (cmds : List (Command N)) (lev : Levels N)
    (in1 in2 : List (N × List Char)) (pass : Nat)
    (h : in1.filter (fun i => lev i.1 = some pass) = in2.filter (fun i => lev i.1 = some pass)) (s : PState N W) :
    onePass sem cmds lev in1 s pass = onePass sem cmds lev in2 s pass := by
  have hany : ∀ l : List (N × List Char), l.any (fun i => lev i.1 = some pass && i.1 = sem.ion) =
      (l.filter (fun i => lev i.1 = some pass)).any (fun i => i.1 = sem.ion) := by
    intro l
    rw [List.any_filter]
  unfold onePass
  rw [inputs_filter, inputs_filter sem cmds lev pass in2, h, hany in1, hany in2, h]

end Jdftx.Cmd
