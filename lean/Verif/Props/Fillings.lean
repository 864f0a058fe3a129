import Verif.Model.Fillings
import Verif.Lemmas.Res
import Mathlib.Tactic.Linarith
import Mathlib.Tactic.Ring
import Mathlib.Tactic.FieldSimp
import Mathlib.Algebra.GroupWithZero.Action.Defs
import Mathlib.Algebra.Order.BigOperators.Group.List
import Mathlib.Algebra.BigOperators.Group.List.Lemmas
import Mathlib.Algebra.Order.Ring.Rat
import Mathlib.Data.Rat.Floor

/-!
# Initial fillings (C44)
-/
namespace Jdftx.Fill

variable {K : Type} [Field K] [LinearOrder K] [IsStrictOrderedRing K] [FloorRing K]

omit [FloorRing K] in
/-- With `n` bands and `f ≥ 0` electrons: one value per band, all between 0 and 1, not increasing, at most one of them fractional, adding
up to the electrons or, if these do not fit, to the number of bands. -/
theorem C44_fill (n : Nat) (f : K) (hf : 0 ≤ f) :
    (fillLoop n f).length = n ∧ (∀ x ∈ fillLoop n f, 0 ≤ x ∧ x ≤ 1) ∧ (fillLoop n f).Pairwise (· ≥ ·) ∧
    ((fillLoop n f).filter fun x => decide (x ≠ 0 ∧ x ≠ 1)).length ≤ 1 ∧ (fillLoop n f).sum = min f n := by
  induction n generalizing f with
  | zero => simp [fillLoop, hf]
  | succ n ih =>
    have hn : (0 : K) ≤ n := Nat.cast_nonneg n
    unfold fillLoop
    by_cases h1 : f > 1
    · rw [if_pos h1]
      obtain ⟨a, b, c, d, e⟩ := ih (f - 1) (by linarith)
      refine ⟨by simp [a], ?_, ?_, ?_, ?_⟩
      · intro x hx
        rcases List.mem_cons.1 hx with rfl | hx
        · exact ⟨zero_le_one, le_rfl⟩
        · exact b x hx
      · exact List.pairwise_cons.2 ⟨fun x hx => (b x hx).2, c⟩
      · rw [List.filter_cons_of_neg (by simp)]; exact d
      · rw [List.sum_cons, e]
        push_cast
        rw [← min_add_add_left]
        congr 1 <;> ring
    · have h1 := not_lt.1 h1
      rw [if_neg (not_lt.2 h1)]
      by_cases h0 : f > 0
      · rw [if_pos h0]
        refine ⟨by simp, ?_, ?_, ?_, ?_⟩
        · intro x hx
          rcases List.mem_cons.1 hx with rfl | hx
          · exact ⟨hf, h1⟩
          · rw [List.eq_of_mem_replicate hx]; exact ⟨le_rfl, zero_le_one⟩
        · refine List.pairwise_cons.2 ⟨fun x hx => ?_, ?_⟩
          · rw [List.eq_of_mem_replicate hx]; exact hf
          · exact List.pairwise_replicate.2 (Or.inr le_rfl)
        · have : ((List.replicate n (0 : K)).filter fun x => decide (x ≠ 0 ∧ x ≠ 1)) = [] := by
            rw [List.filter_eq_nil_iff]
            intro x hx
            rw [List.eq_of_mem_replicate hx]; simp
          by_cases hff : decide (f ≠ 0 ∧ f ≠ 1) = true
          · rw [List.filter_cons_of_pos (p := fun x => decide (x ≠ 0 ∧ x ≠ 1)) hff, this]; simp
          · rw [List.filter_cons_of_neg (p := fun x => decide (x ≠ 0 ∧ x ≠ 1)) hff, this]; simp
        · rw [List.sum_cons, List.sum_replicate, smul_zero, add_zero]
          push_cast
          exact (min_eq_left (by linarith)).symm
      · have hz : f = 0 := le_antisymm (not_lt.1 h0) hf
        subst hz
        rw [if_neg h0]
        obtain ⟨a, b, c, d, e⟩ := ih (0 - 0) (by simp)
        refine ⟨by rw [List.length_cons, a], ?_, ?_, ?_, ?_⟩
        · intro x hx
          rcases List.mem_cons.1 hx with rfl | hx
          · exact ⟨le_rfl, zero_le_one⟩
          · exact b x hx
        · refine List.pairwise_cons.2 ⟨fun x hx => ?_, c⟩
          have hs : (fillLoop n (0 - 0 : K)).sum = 0 := by rw [e, sub_zero]; exact min_eq_left hn
          have := List.single_le_sum (fun y hy => (b y hy).1) x hx
          rw [hs] at this
          exact this
        · rw [List.filter_cons_of_neg (by simp)]; exact d
        · rw [List.sum_cons, e, sub_zero, zero_add, min_eq_left hn]
          push_cast
          exact (min_eq_left (by linarith)).symm

example : fillLoop 4 (5/2 : ℚ) = [1, 1, 1/2, 0] := by decide +kernel

/-! ### Changing the number of bands -/

omit [FloorRing K] in
theorem deplete_spec (l : List K) : ∀ q > 0, (deplete l q).1.length = l.length ∧ 0 ≤ (deplete l q).2 ∧ (deplete l q).1.sum - (deplete l q).2 = l.sum - q ∧
    ((∀ x ∈ l, 0 ≤ x ∧ x ≤ 1) → ∀ x ∈ (deplete l q).1, 0 ≤ x ∧ x ≤ 1) := by
  induction l with
  | nil => intro q hq; simp [deplete, hq.le]
  | cons f l ih =>
    intro q hq
    unfold deplete
    by_cases h : f < q
    · rw [if_pos h]
      obtain ⟨a, b, c, d⟩ := ih (q - f) (by linarith)
      refine ⟨by simp [a], b, ?_, ?_⟩
      · simp only [List.sum_cons]; linarith
      · intro hx x hm
        rcases List.mem_cons.1 hm with rfl | hm
        · exact ⟨le_rfl, zero_le_one⟩
        · exact d (fun y hy => hx y (by simp [hy])) x hm
    · rw [if_neg h]
      have h := not_lt.1 h
      refine ⟨by simp, le_rfl, by simp only [List.sum_cons]; ring, ?_⟩
      intro hx x hm
      rcases List.mem_cons.1 hm with rfl | hm
      · have := hx f (by simp); exact ⟨by linarith, by linarith⟩
      · exact hx x (by simp [hm])

omit [FloorRing K] in
theorem saturate_spec (l : List K) : ∀ q > 0, (saturate l q).1.length = l.length ∧ 0 ≤ (saturate l q).2 ∧ (saturate l q).1.sum + (saturate l q).2 = l.sum + q ∧
    ((∀ x ∈ l, 0 ≤ x ∧ x ≤ 1) → ∀ x ∈ (saturate l q).1, 0 ≤ x ∧ x ≤ 1) := by
  induction l with
  | nil => intro q hq; simp [saturate, hq.le]
  | cons f l ih =>
    intro q hq
    unfold saturate
    by_cases h : f + q > 1
    · rw [if_pos h]
      obtain ⟨a, b, c, d⟩ := ih (q - (1 - f)) (by linarith)
      refine ⟨by simp [a], b, ?_, ?_⟩
      · simp only [List.sum_cons]; linarith
      · intro hx x hm
        rcases List.mem_cons.1 hm with rfl | hm
        · exact ⟨zero_le_one, le_rfl⟩
        · exact d (fun y hy => hx y (by simp [hy])) x hm
    · rw [if_neg h]
      have h := not_lt.1 h
      refine ⟨by simp, le_rfl, by simp only [List.sum_cons]; ring, ?_⟩
      intro hx x hm
      rcases List.mem_cons.1 hm with rfl | hm
      · have := hx f (by simp); exact ⟨by linarith, h⟩
      · exact hx x (by simp [hm])

omit [FloorRing K] [LinearOrder K] [IsStrictOrderedRing K] in
theorem foldl_add (l : List K) : ∀ a, l.foldl (· + ·) a = a + l.sum := by
  induction l with
  | nil => intro a; simp
  | cons x l ih => intro a; rw [List.foldl_cons, ih, List.sum_cons]; ring

omit [FloorRing K] [LinearOrder K] [IsStrictOrderedRing K] in
theorem resize_sum (n : Nat) (F : List K) : (resize n F).sum + (F.drop n).sum = F.sum := by
  unfold resize
  rw [List.sum_append, List.sum_replicate, smul_zero, add_zero, ← List.sum_append, List.take_append_drop]

omit [FloorRing K] in
/-- Changing the number of bands of fillings read from a file keeps the number of electrons, for every old and new number of bands, or stops with an
error; values between 0 and 1 stay so, and without bands being dropped nothing changes. Values outside the limits of any smearing are not accepted. -/
theorem C44_adapt (fMin fMax : K) (nBands : Nat) (F F' : List K) (h : adapt fMin fMax nBands F = .ok F') :
    F'.length = nBands ∧ F'.sum = F.sum ∧ ((∀ x ∈ F, 0 ≤ x ∧ x ≤ 1) → ∀ x ∈ F', 0 ≤ x ∧ x ≤ 1) ∧
    (F.length ≤ nBands → F' = F ++ List.replicate (nBands - F.length) 0) ∧ ∀ x ∈ F, fMin ≤ x ∧ x ≤ fMax := by
  rw [← and_assoc, ← and_assoc, ← and_assoc]
  refine ⟨?_, fun x hx => ?_⟩
  swap
  · unfold adapt at h
    by_cases hc : F.any (fun f => decide (f < fMin) || decide (fMax < f)) = true
    · rw [if_pos hc] at h; exact absurd h (by simp)
    · simp only [List.any_eq_true, not_exists, not_and, Bool.or_eq_true, decide_eq_true_eq, not_or, not_lt] at hc
      exact hc x hx
  rw [and_assoc, and_assoc]
  unfold adapt at h
  split at h
  · exact absurd h (by simp)
  · simp only at h
    have hlen : (resize nBands F).length = nBands := by unfold resize; simp; omega
    have hsum := resize_sum nBands F
    have hbd : (∀ x ∈ F, 0 ≤ x ∧ x ≤ 1) → ∀ x ∈ resize nBands F, 0 ≤ x ∧ x ≤ 1 := by
      intro hx x hm
      unfold resize at hm
      rcases List.mem_append.1 hm with hm | hm
      · exact hx x (List.mem_of_mem_take hm)
      · rw [List.eq_of_mem_replicate hm]; exact ⟨le_rfl, zero_le_one⟩
    have hfew : F.length ≤ nBands → (F.drop nBands).sum = 0 := by
      intro hl; rw [List.drop_eq_nil_of_le hl]; rfl
    rw [foldl_add, zero_add] at h
    by_cases h1 : (F.drop nBands).sum < 0
    · rw [if_pos h1] at h
      have hd := deplete_spec (resize nBands F).reverse (-(F.drop nBands).sum) (by linarith)
      split at h
      · exact absurd h (by simp)
      · rename_i h2
        have h := Except.ok.inj h
        subst h
        have h2 : (deplete (resize nBands F).reverse (-(F.drop nBands).sum)).2 = 0 := le_antisymm (not_lt.1 h2) hd.2.1
        refine ⟨by rw [List.length_reverse, hd.1, List.length_reverse, hlen], ?_, ?_, ?_⟩
        · have := hd.2.2.1
          rw [h2, List.sum_reverse] at this
          rw [List.sum_reverse]
          linarith
        · intro hx x hm
          exact hd.2.2.2 (fun y hy => hbd hx y (List.mem_reverse.1 hy)) x (List.mem_reverse.1 hm)
        · intro hl; rw [hfew hl] at h1; exact absurd h1 (lt_irrefl _)
    · rw [if_neg h1] at h
      by_cases h3 : (F.drop nBands).sum > 0
      · rw [if_pos h3] at h
        have hd := saturate_spec (resize nBands F) (F.drop nBands).sum h3
        split at h
        · exact absurd h (by simp)
        · rename_i h2
          have h := Except.ok.inj h
          subst h
          have h2 : (saturate (resize nBands F) (F.drop nBands).sum).2 = 0 := le_antisymm (not_lt.1 h2) hd.2.1
          refine ⟨by rw [hd.1, hlen], ?_, ?_, ?_⟩
          · have := hd.2.2.1
            rw [h2] at this
            linarith
          · intro hx x hm
            exact hd.2.2.2 (hbd hx) x hm
          · intro hl; rw [hfew hl] at h3; exact absurd h3 (lt_irrefl _)
      · rw [if_neg h3] at h
        have h := Except.ok.inj h
        subst h
        have h0 : (F.drop nBands).sum = 0 := le_antisymm (not_lt.1 h3) (not_lt.1 h1)
        refine ⟨hlen, by rw [h0, add_zero] at hsum; exact hsum, hbd, ?_⟩
        intro hl
        unfold resize
        rw [List.take_of_length_le hl]

example : adapt (-1/30) (13/12) 3 [1, 1/2, 1/4, 1/4, (1/8 : ℚ)] = .ok [1, 7/8, 1/4] := by decide +kernel
example : adapt (-1/30) (13/12) 1 [1, 1/2, (1/4 : ℚ)] = .error .die := by decide +kernel

/-! ### Whole set-up -/

theorem mapM_ok {α β : Type} (f : α → Res β) (l : List α) (r : List β) (h : l.mapM f = .ok r) :
    r.length = l.length ∧ ∀ (i : Nat) a, l[i]? = some a → ∃ b, r[i]? = some b ∧ f a = .ok b := by
  induction l generalizing r with
  | nil =>
    rw [List.mapM_nil] at h
    have h : [] = r := Except.ok.inj h
    subst h
    exact ⟨rfl, fun i a h => by simp at h⟩
  | cons x l ih =>
    rw [List.mapM_cons] at h
    cases hx : f x with
    | error e => rw [hx] at h; exact absurd h (by simp [Res.bind_error])
    | ok b =>
      rw [hx, Res.bind_ok] at h
      cases hl : l.mapM f with
      | error e => rw [hl] at h; exact absurd h (by simp)
      | ok r' =>
        rw [hl, Res.bind_ok] at h
        have h : b :: r' = r := Except.ok.inj h
        subst h
        obtain ⟨h1, h2⟩ := ih r' hl
        refine ⟨by simp [h1], ?_⟩
        intro i a hi
        cases i with
        | zero =>
          simp only [List.getElem?_cons_zero, Option.some.injEq] at hi
          subst hi
          exact ⟨b, by simp, hx⟩
        | succ i =>
          simp only [List.getElem?_cons_succ] at hi ⊢
          exact h2 i a hi

omit [FloorRing K] [IsStrictOrderedRing K] in
theorem le_maxElem (l : List K) (x : K) (hx : x ∈ l) : x ≤ maxElem l := by
  have key : ∀ (l : List K) (a : K), a ≤ l.foldl max a ∧ ∀ y ∈ l, y ≤ l.foldl max a := by
    intro l
    induction l with
    | nil => intro a; exact ⟨le_rfl, by simp⟩
    | cons b l ih =>
      intro a
      have h := ih (max a b)
      refine ⟨le_trans (le_max_left _ _) h.1, ?_⟩
      intro y hy
      rcases List.mem_cons.1 hy with rfl | hy
      · exact le_trans (le_max_right _ _) h.1
      · exact h.2 y hy
  cases l with
  | nil => simp at hx
  | cons a l =>
    rcases List.mem_cons.1 hx with rfl | hx
    · exact (key l _).1
    · exact (key l a).2 x hx

omit [FloorRing K] [IsStrictOrderedRing K] in
theorem channels_spec (p : Inp K) (ns : List K) (h : channels p = .ok ns) : ns.length = p.nSpins ∧ ∀ s < p.nSpins, ns[s]? = some (nsElectrons p s) ∧ 0 ≤ nsElectrons p s := by
  obtain ⟨h1, h2⟩ := mapM_ok _ _ _ h
  refine ⟨by simpa using h1, fun s hs => ?_⟩
  obtain ⟨b, hb, hf⟩ := h2 s s (by rw [List.getElem?_range hs])
  split at hf
  · exact absurd hf (by simp)
  · rename_i hn
    have hf := Except.ok.inj hf
    subst hf
    exact ⟨hb, not_lt.1 hn⟩

/-- Total number of electrons: valence electrons of all atoms plus the extra charge. -/
def totalElectrons (p : Inp K) : K := p.Qinitial + (p.species.map fun sp => sp.1 * (sp.2 : K)).sum

omit [FloorRing K] [LinearOrder K] [IsStrictOrderedRing K] in
theorem nsElectrons_eq (p : Inp K) (s : Nat) :
    nsElectrons p s = (p.Qinitial + (if s ≠ 0 then -1 else 1) * p.Minitial) / p.nSpins + (p.species.map fun sp => sp.1 * (sp.2 : K)).sum * (1 / p.nSpins) := by
  have key : ∀ (l : List (K × Nat)) (a : K), l.foldl (fun (a : K) (sp : K × Nat) => a + sp.1 * (sp.2 : K) * (1 / (p.nSpins : K))) a = a + (l.map fun sp => sp.1 * (sp.2 : K)).sum * (1 / p.nSpins) := by
    intro l
    induction l with
    | nil => intro a; simp
    | cons x l ih => intro a; rw [List.foldl_cons, ih, List.map_cons, List.sum_cons]; ring
  exact key _ _

/-- With the automatic number of bands, every state gets exactly the electrons of its spin channel (half of them in a spin-unpolarised system, in
which each band holds two), and the reported number of electrons is the total, split between two spin channels with difference `Minitial`. -/
theorem C44_setup (p : Inp K) (hsp : p.nSpins = 1 ∧ p.Minitial = 0 ∨ p.nSpins = 2) (hw : 0 < p.spinWeight) (hauto : p.nBands = 0) (nEl : K) (F : List (List K))
    (h : setup p = .ok (nEl, F)) :
    nEl = totalElectrons p ∧ F.length = p.states.length ∧
    ∀ (i s : Nat) (w : K), p.states[i]? = some (s, w) → ∃ f, F[i]? = some f ∧
      f.sum * p.spinWeight = (totalElectrons p + (if p.nSpins = 2 then (if s = 0 then 1 else -1) * p.Minitial else 0)) / p.nSpins ∧ (∀ x ∈ f, 0 ≤ x ∧ x ≤ 1) := by
  unfold setup at h
  cases hc : channels p with
  | error e => rw [hc] at h; exact absurd h (by simp [Res.bind_error])
  | ok ns =>
    rw [hc, Res.bind_ok] at h
    simp only at h
    cases hm : p.states.mapM (fillState p ns) with
    | error e => rw [hm] at h; exact absurd h (by simp [Res.bind_error])
    | ok F' =>
      rw [hm, Res.bind_ok] at h
      split at h
      swap
      · exact absurd h (by simp)
      have h := Except.ok.inj h
      obtain ⟨h1, h2⟩ := Prod.mk.inj h
      subst h2
      obtain ⟨c1, c2⟩ := channels_spec p ns hc
      obtain ⟨m1, m2⟩ := mapM_ok _ _ _ hm
      refine ⟨?_, m1, ?_⟩
      · rw [← h1, foldl_add, zero_add]
        rcases hsp with ⟨hs, hM⟩ | hs
        · rw [hs] at c1 c2
          have e0 := (c2 0 (by omega)).1
          have : ns = [nsElectrons p 0] := by
            apply List.ext_getElem?
            intro i
            cases i with
            | zero => rw [e0]; rfl
            | succ i => rw [List.getElem?_eq_none (by omega), List.getElem?_eq_none (by simp)]
          rw [this, nsElectrons_eq, hs, hM]
          simp [totalElectrons]
        · rw [hs] at c1 c2
          have e0 := (c2 0 (by omega)).1
          have e1 := (c2 1 (by omega)).1
          have : ns = [nsElectrons p 0, nsElectrons p 1] := by
            apply List.ext_getElem?
            intro i
            match i with
            | 0 => rw [e0]; rfl
            | 1 => rw [e1]; rfl
            | i+2 => rw [List.getElem?_eq_none (by omega), List.getElem?_eq_none (by simp)]
          rw [this, nsElectrons_eq, nsElectrons_eq, hs]
          simp [totalElectrons]
          field_simp
          ring
      · intro i s w hi
        obtain ⟨f, hf, hf'⟩ := m2 i (s, w) hi
        refine ⟨f, hf, ?_⟩
        simp only [fillState] at hf'
        cases hns : ns[s]? with
        | none => rw [hns] at hf'; exact absurd hf' (by simp)
        | some n =>
          rw [hns] at hf'
          have hf' := Except.ok.inj hf'
          have hslt : s < p.nSpins := by rw [← c1]; exact (List.getElem?_eq_some_iff.1 hns).1
          have hn : n = nsElectrons p s := by have := (c2 s hslt).1; rw [hns] at this; exact Option.some.inj this
          have hn0 : 0 ≤ n := by rw [hn]; exact (c2 s hslt).2
          have hpos : 0 ≤ n * (1 / p.spinWeight) := by positivity
          obtain ⟨_, b, _, _, e⟩ := C44_fill (bands p ns).toNat (n * (1 / p.spinWeight)) hpos
          rw [hf'] at b e
          refine ⟨?_, b⟩
          have hfit : n * (1 / p.spinWeight) ≤ ((bands p ns).toNat : K) := by
            have hmax : n ≤ maxElem ns := le_maxElem ns n (List.mem_of_getElem? hns)
            have hceil : maxElem ns * (1 / p.spinWeight) ≤ (⌈maxElem ns * (1 / p.spinWeight)⌉ : Int) := Int.le_ceil _
            have h3 : ⌈maxElem ns * (1 / p.spinWeight)⌉ ≤ ((bands p ns).toNat : Int) := by
              unfold bands
              rw [if_neg (by simp [hauto])]
              simp only
              split <;> omega
            calc n * (1 / p.spinWeight) ≤ maxElem ns * (1 / p.spinWeight) := mul_le_mul_of_nonneg_right hmax (by positivity)
              _ ≤ _ := hceil
              _ ≤ (((bands p ns).toNat : Int) : K) := by exact_mod_cast h3
              _ = _ := by push_cast; rfl
          rw [e, min_eq_left hfit, hn, nsElectrons_eq]
          unfold totalElectrons
          rcases hsp with ⟨hs, hM⟩ | hs
          · rw [hs, hM]; simp; field_simp
          · rw [hs]
            by_cases h0 : s = 0
            · simp [h0]; field_simp; ring
            · simp [h0]; field_simp; ring

/-- The same number of electrons is found in the states: with weights of each spin channel adding up to the spin weight, the weighted sum of the
fillings is the number of electrons. -/
theorem C44_total (p : Inp K) (hsp : p.nSpins = 1 ∧ p.Minitial = 0 ∨ p.nSpins = 2) (hw : 0 < p.spinWeight) (hauto : p.nBands = 0) (nEl : K) (F : List (List K))
    (h : setup p = .ok (nEl, F)) (hs : ∀ q ∈ p.states, q.1 < p.nSpins)
    (hweights : ∀ s < p.nSpins, ((p.states.filter fun q => decide (q.1 = s)).map Prod.snd).sum = p.spinWeight) :
    (List.zipWith (fun q f => q.2 * f.sum) p.states F).sum = nEl := by
  obtain ⟨h1, h2, h3⟩ := C44_setup p hsp hw hauto nEl F h
  let g : Nat → K := fun s => (totalElectrons p + (if p.nSpins = 2 then (if s = 0 then 1 else -1) * p.Minitial else 0)) / p.nSpins / p.spinWeight
  have hz : List.zipWith (fun q f => q.2 * f.sum) p.states F = p.states.map fun q => q.2 * g q.1 := by
    apply List.ext_getElem?
    intro i
    rw [List.getElem?_zipWith, List.getElem?_map]
    cases hi : p.states[i]? with
    | none => rfl
    | some q =>
      obtain ⟨f, hf, hfs, _⟩ := h3 i q.1 q.2 hi
      rw [hf]
      simp only [Option.map_some, Option.some.injEq]
      have : f.sum = g q.1 := by
        simp only [g]
        rw [← hfs]; field_simp
      rw [this]
  have hsplit : ∀ l : List (Nat × K), (∀ q ∈ l, q.1 < p.nSpins) → (l.map fun q => q.2 * g q.1).sum =
      ((List.range p.nSpins).map fun s => ((l.filter fun q => decide (q.1 = s)).map Prod.snd).sum * g s).sum := by
    intro l
    induction l with
    | nil => intro _; simp
    | cons q l ih =>
      intro hl
      rw [List.map_cons, List.sum_cons, ih fun x hx => hl x (by simp [hx])]
      have hq := hl q (by simp)
      have : ∀ n, q.1 < n → ((List.range n).map fun s => (((q :: l).filter fun q => decide (q.1 = s)).map Prod.snd).sum * g s).sum =
          q.2 * g q.1 + ((List.range n).map fun s => ((l.filter fun q => decide (q.1 = s)).map Prod.snd).sum * g s).sum := by
        intro n
        induction n with
        | zero => intro h; omega
        | succ n ihn =>
          intro hlt
          rw [List.range_succ, List.map_append, List.sum_append, List.map_append, List.sum_append]
          simp only [List.map_cons, List.map_nil, List.sum_cons, List.sum_nil, add_zero]
          by_cases he : q.1 = n
          · rw [List.filter_cons_of_pos (by simpa using he)]
            have hrest : ((List.range n).map fun s => (((q :: l).filter fun q => decide (q.1 = s)).map Prod.snd).sum * g s) =
                (List.range n).map fun s => ((l.filter fun q => decide (q.1 = s)).map Prod.snd).sum * g s := by
              apply List.map_congr_left
              intro s hs
              rw [List.filter_cons_of_neg]
              have := List.mem_range.1 hs
              simp; omega
            rw [hrest, List.map_cons, List.sum_cons, he]; ring
          · rw [List.filter_cons_of_neg (by simpa using he), ihn (by omega)]; ring
      exact (this p.nSpins hq).symm
  rw [hz, hsplit _ hs, h1]
  have hw' : p.spinWeight ≠ 0 := hw.ne'
  rcases hsp with ⟨hn, _⟩ | hn
  · have w0 := hweights 0 (by omega)
    simp only [hn, List.range_one, List.map_cons, List.map_nil, List.sum_cons, List.sum_nil, w0, g]
    simp
    field_simp
  · have w0 := hweights 0 (by omega)
    have w1 := hweights 1 (by omega)
    rw [hn, show List.range 2 = [0, 1] from rfl]
    simp only [List.map_cons, List.map_nil, List.sum_cons, List.sum_nil, w0, w1, g, hn]
    simp
    field_simp
    ring

omit [FloorRing K] [LinearOrder K] [IsStrictOrderedRing K] in
theorem ns_total (p : Inp K) [CharZero K] (hsp : p.nSpins = 1 ∧ p.Minitial = 0 ∨ p.nSpins = 2) :
    ((List.range p.nSpins).map (nsElectrons p)).sum = totalElectrons p := by
  rcases hsp with ⟨hs, hM⟩ | hs
  · rw [hs, List.range_one]
    simp only [List.map_cons, List.map_nil, List.sum_cons, List.sum_nil, nsElectrons_eq, hs, hM]
    simp [totalElectrons]
  · rw [hs, show List.range 2 = [0, 1] from rfl]
    simp only [List.map_cons, List.map_nil, List.sum_cons, List.sum_nil, nsElectrons_eq, hs]
    simp [totalElectrons]
    ring

/-- A given number of bands is accepted exactly when no spin channel has a negative number of electrons and the bands can hold the electrons on
average; with variable fillings there must be room to spare. -/
theorem C44_accepts (p : Inp K) (hsp : p.nSpins = 1 ∧ p.Minitial = 0 ∨ p.nSpins = 2) (hw : 0 < p.spinWeight) (hgiven : p.nBands ≠ 0)
    (hs : ∀ q ∈ p.states, q.1 < p.nSpins) :
    (∃ r, setup p = .ok r) ↔
      (∀ s < p.nSpins, 0 ≤ totalElectrons p + (if s = 0 then 1 else -1) * p.Minitial) ∧
      (if p.fixedFillings then totalElectrons p ≤ p.nBands * (p.nSpins * p.spinWeight) else totalElectrons p < p.nBands * (p.nSpins * p.spinWeight)) := by
  have hN : (0 : K) < p.nSpins := by rcases hsp with ⟨h, _⟩ | h <;> rw [h] <;> norm_num
  have hns : ∀ s, nsElectrons p s = (totalElectrons p + (if s = 0 then 1 else -1) * p.Minitial) / p.nSpins := by
    intro s
    rw [nsElectrons_eq]
    unfold totalElectrons
    by_cases h0 : s = 0
    · simp [h0]; field_simp; ring
    · simp [h0]; field_simp; ring
  have hpos : ∀ s, 0 ≤ nsElectrons p s ↔ 0 ≤ totalElectrons p + (if s = 0 then 1 else -1) * p.Minitial := by
    intro s
    rw [hns, le_div_iff₀ hN, zero_mul]
  have hW : 0 < (p.nSpins : K) * p.spinWeight := mul_pos hN hw
  have hok : bandsOk p (p.nBands : Int) (totalElectrons p) = true ↔
      (if p.fixedFillings then totalElectrons p ≤ p.nBands * (p.nSpins * p.spinWeight) else totalElectrons p < p.nBands * (p.nSpins * p.spinWeight)) := by
    unfold bandsOk
    simp only
    split
    · simp only [Bool.not_eq_true', decide_eq_false_iff_not, not_lt, Int.ceil_le]
      rw [div_le_iff₀ hW]; push_cast; rfl
    · simp only [Bool.not_eq_true', decide_eq_false_iff_not, not_le]
      push_cast; rfl
  have hfill : ∀ ns : List K, ns.length = p.nSpins → ∃ F, p.states.mapM (fillState p ns) = .ok F := by
    intro ns hl
    generalize p.states = l at hs
    induction l with
    | nil => exact ⟨[], rfl⟩
    | cons q l ih =>
      obtain ⟨F, hF⟩ := ih fun x hx => hs x (by simp [hx])
      have hq : q.1 < ns.length := by rw [hl]; exact hs q (by simp)
      refine ⟨fillLoop (bands p ns).toNat (ns[q.1] * (1 / p.spinWeight)) :: F, ?_⟩
      rw [List.mapM_cons]
      simp only [fillState, List.getElem?_eq_getElem hq, Res.bind_ok]
      rw [hF]; rfl
  constructor
  · rintro ⟨r, h⟩
    unfold setup at h
    cases hc : channels p with
    | error e => rw [hc] at h; exact absurd h (by simp [Res.bind_error])
    | ok ns =>
      rw [hc, Res.bind_ok] at h
      simp only at h
      obtain ⟨c1, c2⟩ := channels_spec p ns hc
      have hl : ns = (List.range p.nSpins).map (nsElectrons p) := by
        apply List.ext_getElem?
        intro i
        by_cases hi : i < p.nSpins
        · rw [(c2 i hi).1, List.getElem?_map, List.getElem?_range hi]; rfl
        · rw [List.getElem?_eq_none (by omega), List.getElem?_eq_none (by simp; omega)]
      obtain ⟨F, hF⟩ := hfill ns c1
      rw [hF, Res.bind_ok] at h
      refine ⟨fun s hs => (hpos s).1 (c2 s hs).2, hok.1 ?_⟩
      split at h
      · rename_i hb
        rw [foldl_add, zero_add, hl, ns_total p hsp] at hb
        simpa [bands, hgiven] using hb
      · exact absurd h (by simp)
  · rintro ⟨h1, h2⟩
    have hc : channels p = .ok ((List.range p.nSpins).map (nsElectrons p)) := by
      unfold channels
      have : ∀ l : List Nat, (∀ s ∈ l, 0 ≤ nsElectrons p s) →
          (l.mapM fun s => if nsElectrons p s < 0 then (.error .die : Res K) else .ok (nsElectrons p s)) = .ok (l.map (nsElectrons p)) := by
        intro l
        induction l with
        | nil => intro _; rfl
        | cons a l ih =>
          intro hl
          rw [List.mapM_cons, if_neg (not_lt.2 (hl a (by simp))), Res.bind_ok, ih fun x hx => hl x (by simp [hx])]
          rfl
      exact this _ fun s hs => (hpos s).2 (h1 s (List.mem_range.1 hs))
    obtain ⟨F, hF⟩ := hfill ((List.range p.nSpins).map (nsElectrons p)) (by simp)
    unfold setup
    rw [hc, Res.bind_ok]
    simp only
    rw [hF, Res.bind_ok, foldl_add, zero_add, ns_total p hsp, if_pos]
    · exact ⟨_, rfl⟩
    · have := hok.2 h2
      simpa [bands, hgiven] using this

def exInp : Inp ℚ := {
  nSpins := 2, spinWeight := 1, Qinitial := 1, Minitial := 2, species := [(4, 2)], nBands := 0, fixedFillings := true
  nBandsMultiplier := 1, nAtomicOrbitals := 8, states := [(0, 1/2), (0, 1/2), (1, 1/2), (1, 1/2)] }

/-- Nine electrons with magnetization 2: 5.5 up, 3.5 down, six bands. -/
example : setup exInp = .ok (9, [[1, 1, 1, 1, 1, 1/2], [1, 1, 1, 1, 1, 1/2], [1, 1, 1, 1/2, 0, 0], [1, 1, 1, 1/2, 0, 0]]) := by decide +kernel

/-- Nine electrons do not fit into four bands per spin. -/
example : setup { exInp with nBands := 4 } = .error .die := by decide +kernel

/-- With a number of bands given by the user, the check only looks at the average over spin channels: 6 electrons with magnetization 4 in three bands
pass the check, but only 4 of them are placed. -/
theorem C44_spin_violation : setup { exInp with Qinitial := -2, Minitial := 4, nBands := 3 } = .ok (6, [[1, 1, 1], [1, 1, 1], [1, 0, 0], [1, 0, 0]]) := by
  decide +kernel

end Jdftx.Fill
