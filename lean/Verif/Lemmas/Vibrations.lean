import Verif.Spec.Vibrations
import Verif.Lemmas.Res
import Verif.Lemmas.Mat3
import Mathlib.Tactic.Linarith
import Mathlib.LinearAlgebra.Matrix.SemiringInverse
import Mathlib.Tactic.Ring
import Mathlib.Tactic.FinCases
import Mathlib.Tactic.FieldSimp
import Mathlib.Tactic.LinearCombination

/-!
# Lemmas for C105: modes, symmetries, finite differences
-/
namespace Jdftx.Vib
noncomputable section
open M3

variable {N ns : ℕ}

/-- Modes of one atom. -/
def block (dirs : Fin N → Option (List (V3 ℝ))) (isP isT : Fin N → Bool) (a : Fin N) : List (Mode N) := ((dirs a).getD []).map fun n => ⟨a, n, isP a, isT a⟩

/-- Invariant of the loop over atoms. -/
structure LInv (o : Sym N ns) (tr : Bool) (dirs : Fin N → Option (List (V3 ℝ))) (L : List (Fin N)) (st : LSt N) (isP isT : Fin N → Bool) : Prop where
  modes : st.modes = L.flatMap (block dirs isP isT)
  found : ∀ a ∈ L, dirs a ≠ none → isT a = true → st.found = true
  prim : ∀ x, st.prim x = false → ∃ b ∈ L, dirs b ≠ none ∧ ∃ r, o.amap b r = x
  tra : ∀ a ∈ L, dirs a ≠ none → isT a = true → isP a = false ∧ (∀ r, o.amap a r = a) ∧ tr = true
  uniq : ∀ a ∈ L, dirs a ≠ none → ∀ b ∈ L, dirs b ≠ none → isT a = true → isT b = true → a = b
  cover : ∀ a ∈ L, dirs a ≠ none → isT a = false → ∃ p ∈ L, dirs p ≠ none ∧ isP p = true ∧ ∃ r, o.amap p r = a

theorem foldl_update_false {α : Type*} [DecidableEq α] (f : Fin ns → α) (l : List (Fin ns)) (p : α → Bool) (x : α) :
    (l.foldl (fun p r => Function.update p (f r) false) p) x = false ↔ p x = false ∨ ∃ r ∈ l, f r = x := by
  induction l generalizing p with
  | nil => simp
  | cons r l ih =>
    rw [List.foldl_cons, ih]
    by_cases h : x = f r
    · subst h; simp
    · have : ¬f r = x := fun e => h e.symm
      simp [Function.update_of_ne h, this]

theorem flatMap_congr {α β : Type*} {l : List α} {f g : α → List β} (h : ∀ a ∈ l, f a = g a) : l.flatMap f = l.flatMap g := by
  induction l with
  | nil => rfl
  | cons a l ih => rw [List.flatMap_cons, List.flatMap_cons, h a (List.mem_cons_self ..), ih fun b hb => h b (List.mem_cons_of_mem _ hb)]

theorem inv_step {o : Sym N ns} (g : Group o) {tr : Bool} {dirs : Fin N → Option (List (V3 ℝ))} {L : List (Fin N)} {st : LSt N} {isP isT : Fin N → Bool}
    (h : LInv o tr dirs L st isP isT) (a : Fin N) (ha : a ∉ L) : ∃ isP' isT', LInv o tr dirs (L ++ [a]) (addAtom o tr dirs st a) isP' isT' := by
  cases hd : dirs a with
  | none =>
    refine ⟨isP, isT, ?_⟩
    have e : addAtom o tr dirs st a = st := by unfold addAtom; rw [hd]
    rw [e]
    have mem : ∀ b ∈ L ++ [a], dirs b ≠ none → b ∈ L := by
      intro b hb hn
      rcases List.mem_append.1 hb with hb | hb
      · exact hb
      · rw [List.mem_singleton.1 hb, hd] at hn
        exact absurd rfl hn
    refine ⟨?_, fun b hb hn => h.found b (mem b hb hn) hn, ?_, fun b hb hn => h.tra b (mem b hb hn) hn, fun b hb hn c hc hn' => h.uniq b (mem b hb hn) hn c (mem c hc hn') hn', ?_⟩
    · rw [h.modes, List.flatMap_append]
      simp [block, hd]
    · intro x hx
      obtain ⟨b, hb, hh⟩ := h.prim x hx
      exact ⟨b, List.mem_append_left _ hb, hh⟩
    · intro b hb hn ht
      obtain ⟨p, hp, hh⟩ := h.cover b (mem b hb hn) hn ht
      exact ⟨p, List.mem_append_left _ hp, hh⟩
  | some l =>
    have hn : dirs a ≠ none := by simp [hd]
    obtain ⟨r1, hr1⟩ := g.one
    generalize hT : (tr && !st.found && decide (∀ r, o.amap a r = a)) = T
    generalize hp : (if T = true then Function.update st.prim a false else st.prim) = p
    have e : addAtom o tr dirs st a = ⟨(List.finRange ns).foldl (fun p r => Function.update p (o.amap a r) false) p, st.found || T, st.modes ++ l.map fun n => ⟨a, n, p a, T⟩⟩ := by
      unfold addAtom
      simp only [hd, hT, hp]
    rw [e]
    refine ⟨Function.update isP a (p a), Function.update isT a T, ?_⟩
    have ne : ∀ b ∈ L, b ≠ a := fun b hb e => ha (e ▸ hb)
    have hTt : T = true → tr = true ∧ st.found = false ∧ ∀ r, o.amap a r = a := by
      intro ht
      rw [ht] at hT
      simp only [Bool.and_eq_true, Bool.not_eq_true', decide_eq_true_eq] at hT
      exact ⟨hT.1.1, hT.1.2, hT.2⟩
    have hpp : ∀ x, p x = false → (x = a ∧ T = true) ∨ st.prim x = false := by
      intro x hx
      rw [← hp] at hx
      split at hx
      · rename_i ht
        by_cases hxa : x = a
        · exact Or.inl ⟨hxa, ht⟩
        · rw [Function.update_of_ne hxa] at hx
          exact Or.inr hx
      · exact Or.inr hx
    refine ⟨?_, ?_, ?_, ?_, ?_, ?_⟩
    · show st.modes ++ _ = _
      rw [h.modes, List.flatMap_append]
      congr 1
      · refine flatMap_congr fun b hb => ?_
        simp only [block, Function.update_of_ne (ne b hb)]
      · simp [block, hd]
    · intro b hb hnb ht
      rcases List.mem_append.1 hb with hb | hb
      · rw [Function.update_of_ne (ne b hb)] at ht
        simp [h.found b hb hnb ht]
      · rw [List.mem_singleton.1 hb, Function.update_self] at ht
        simp [ht]
    · intro x hx
      have hx := (foldl_update_false _ _ _ _).1 hx
      rcases hx with hx | ⟨r, _, hr⟩
      · rcases hpp x hx with ⟨rfl, ht⟩ | hx
        · exact ⟨x, by simp, hn, r1, (hTt ht).2.2 r1⟩
        · obtain ⟨b, hb, hh⟩ := h.prim x hx
          exact ⟨b, List.mem_append_left _ hb, hh⟩
      · exact ⟨a, by simp, hn, r, hr⟩
    · intro b hb hnb ht
      rcases List.mem_append.1 hb with hb | hb
      · rw [Function.update_of_ne (ne b hb)] at ht ⊢
        exact h.tra b hb hnb ht
      · rw [List.mem_singleton.1 hb, Function.update_self] at ht ⊢
        refine ⟨?_, (hTt ht).2.2, (hTt ht).1⟩
        rw [← hp, if_pos ht, Function.update_self]
    · intro b hb hnb c hc hnc hbt hct
      rcases List.mem_append.1 hb with hb | hb <;> rcases List.mem_append.1 hc with hc | hc
      · rw [Function.update_of_ne (ne b hb)] at hbt
        rw [Function.update_of_ne (ne c hc)] at hct
        exact h.uniq b hb hnb c hc hnc hbt hct
      · rw [Function.update_of_ne (ne b hb)] at hbt
        rw [List.mem_singleton.1 hc, Function.update_self] at hct
        have h1 := h.found b hb hnb hbt
        rw [(hTt hct).2.1] at h1
        exact absurd h1 (by simp)
      · rw [Function.update_of_ne (ne c hc)] at hct
        rw [List.mem_singleton.1 hb, Function.update_self] at hbt
        have h1 := h.found c hc hnc hct
        rw [(hTt hbt).2.1] at h1
        exact absurd h1 (by simp)
      · rw [List.mem_singleton.1 hb, List.mem_singleton.1 hc]
    · intro b hb hnb ht
      rcases List.mem_append.1 hb with hb | hb
      · rw [Function.update_of_ne (ne b hb)] at ht
        obtain ⟨q, hq, hnq, hPq, hr⟩ := h.cover b hb hnb ht
        exact ⟨q, List.mem_append_left _ hq, hnq, by rw [Function.update_of_ne (ne q hq)]; exact hPq, hr⟩
      · rw [List.mem_singleton.1 hb] at ht ⊢
        rw [Function.update_self] at ht
        cases hpa : p a with
        | true => exact ⟨a, by simp, hn, by rw [Function.update_self], r1, hr1 a⟩
        | false =>
          rcases hpp a hpa with ⟨_, h'⟩ | hx
          · rw [ht] at h'; exact absurd h' (by simp)
          · obtain ⟨c, hc, hnc, r, hr⟩ := h.prim a hx
            cases hct : isT c with
            | true => exact absurd (((h.tra c hc hnc hct).2.1 r).symm.trans hr) (ne c hc)
            | false =>
              obtain ⟨q, hq, hnq, hPq, r', hr'⟩ := h.cover c hc hnc hct
              obtain ⟨r'', hr''⟩ := g.mul r r'
              exact ⟨q, List.mem_append_left _ hq, hnq, by rw [Function.update_of_ne (ne q hq)]; exact hPq, r'', by rw [hr'', hr', hr]⟩

theorem inv_fold {o : Sym N ns} (g : Group o) (tr : Bool) (dirs : Fin N → Option (List (V3 ℝ))) (l : List (Fin N)) : ∀ (L : List (Fin N)) (st : LSt N) (isP isT : Fin N → Bool),
    (L ++ l).Nodup → LInv o tr dirs L st isP isT → ∃ isP' isT', LInv o tr dirs (L ++ l) (l.foldl (addAtom o tr dirs) st) isP' isT' := by
  induction l with
  | nil => intro L st isP isT _ h; exact ⟨isP, isT, by simpa using h⟩
  | cons a l ih =>
    intro L st isP isT hnd h
    have ha : a ∉ L := fun hh => (List.nodup_append.1 hnd).2.2 a hh a (List.mem_cons_self ..) rfl
    obtain ⟨isP', isT', h'⟩ := inv_step g h a ha
    have := ih (L ++ [a]) _ isP' isT' (by simpa using hnd) h'
    simpa using this

/-- The modes. -/
theorem modesOf_spec {o : Sym N ns} (g : Group o) (tr : Bool) (dirs : Fin N → Option (List (V3 ℝ))) : ∃ isP isT : Fin N → Bool,
    modesOf o tr dirs = (List.finRange N).flatMap (block dirs isP isT) ∧
    (∀ a, dirs a ≠ none → isT a = true → isP a = false ∧ (∀ r, o.amap a r = a) ∧ tr = true) ∧
    (∀ a b, dirs a ≠ none → dirs b ≠ none → isT a = true → isT b = true → a = b) ∧
    (∀ a, dirs a ≠ none → isT a = false → ∃ p, dirs p ≠ none ∧ isP p = true ∧ ∃ r, o.amap p r = a) := by
  obtain ⟨isP, isT, h⟩ := inv_fold g tr dirs (List.finRange N) [] ⟨fun _ => true, false, []⟩ (fun _ => true) (fun _ => false) (by simpa using List.nodup_finRange N)
    ⟨rfl, by simp, by simp, by simp, by simp, by simp⟩
  rw [List.nil_append] at h
  have mem := List.mem_finRange (n := N)
  refine ⟨isP, isT, h.modes, fun a => h.tra a (mem a), fun a b h1 h2 => h.uniq a (mem a) h1 b (mem b) h2, fun a h1 h2 => ?_⟩
  obtain ⟨p, _, hp⟩ := h.cover a (mem a) h1 h2
  exact ⟨p, hp⟩

theorem sum_flatMap {α β : Type*} (l : List α) (f : α → List β) (g : β → ℝ) : ((l.flatMap f).map g).sum = (l.map fun a => ((f a).map g).sum).sum := by
  induction l with
  | nil => rfl
  | cons a l ih => simp [List.flatMap_cons, ih]

theorem sum_finRange (f : Fin N → ℝ) : ((List.finRange N).map f).sum = ∑ a, f a := by
  rw [← List.ofFn_eq_map, List.sum_ofFn]

/-- Sum over modes. -/
theorem sum_modes (dirs : Fin N → Option (List (V3 ℝ))) (isP isT : Fin N → Bool) (f : Mode N → ℝ) :
    (((List.finRange N).flatMap (block dirs isP isT)).map f).sum = ∑ a, (((dirs a).getD []).map fun n => f ⟨a, n, isP a, isT a⟩).sum := by
  rw [sum_flatMap, sum_finRange]
  refine Finset.sum_congr rfl fun a _ => ?_
  rw [block, List.map_map]
  rfl

/-- Sum over primary modes. -/
theorem sum_primary (dirs : Fin N → Option (List (V3 ℝ))) (isP isT : Fin N → Bool) (f : Mode N → ℝ) :
    ((((List.finRange N).flatMap (block dirs isP isT)).filter (·.isPrimary)).map f).sum = ∑ a, if isP a then (((dirs a).getD []).map fun n => f ⟨a, n, isP a, isT a⟩).sum else 0 := by
  have e : ∀ l : List (Mode N), ((l.filter (·.isPrimary)).map f).sum = (l.map fun m => if m.isPrimary then f m else 0).sum := by
    intro l
    induction l with
    | nil => rfl
    | cons m l ih =>
      cases hm : m.isPrimary with
      | true => simp [hm, ih]
      | false => simp [hm, ih]
  rw [e, sum_modes]
  refine Finset.sum_congr rfl fun a _ => ?_
  cases hp : isP a with
  | true => simp
  | false => simp

/-! ## Inverses -/

theorem writes_value {α : Type*} [DecidableEq α] (l : List (α × α)) (t : α → α) (k v : α) (h : ∀ w ∈ l, w.1 = k → w.2 = v) (h' : (k, v) ∈ l ∨ t k = v) :
    (l.foldl (fun t w => Function.update t w.1 w.2) t) k = v := by
  induction l generalizing t with
  | nil => simpa using h'
  | cons w l ih =>
    rw [List.foldl_cons]
    refine ih _ (fun w hw => h w (List.mem_cons_of_mem _ hw)) ?_
    by_cases hk : w.1 = k
    · right
      rw [← hk, Function.update_self, h w (List.mem_cons_self ..) hk]
    · rcases h' with h' | h'
      · rcases List.mem_cons.1 h' with h' | h'
        · rw [← h'] at hk; exact absurd rfl hk
        · exact Or.inl h'
      · right
        rw [Function.update_of_ne (Ne.symm hk), h']

theorem mul_comm_one {A B : Mat Int} (h : mulMM A B = diag 1 1 1) : mulMM B A = diag 1 1 1 := by
  have e : ∀ A B : Mat Int, mulMM A B = Matrix.of A * Matrix.of B := by
    intro A B
    funext i j
    simp [mulMM, Matrix.mul_apply, Fin.sum_univ_three]
  have e1 : (diag 1 1 1 : Mat Int) = (1 : Matrix (Fin 3) (Fin 3) Int) := by
    funext i j
    fin_cases i <;> fin_cases j <;> simp [diag, vec]
  rw [e, e1] at h ⊢
  have h2 : (Matrix.of A * Matrix.of B : Matrix (Fin 3) (Fin 3) Int) = 1 := h
  exact (mul_eq_one_comm (M := Matrix (Fin 3) (Fin 3) Int)).1 h2

theorem mul_inv_unique {A B C : Mat Int} (h : mulMM A B = diag 1 1 1) (h' : mulMM A C = diag 1 1 1) : B = C := by
  have e : ∀ A B : Mat Int, mulMM A B = Matrix.of A * Matrix.of B := by
    intro A B
    funext i j
    simp [mulMM, Matrix.mul_apply, Fin.sum_univ_three]
  have e1 : (diag 1 1 1 : Mat Int) = (1 : Matrix (Fin 3) (Fin 3) Int) := by
    funext i j
    fin_cases i <;> fin_cases j <;> simp [diag, vec]
  have hc := mul_comm_one h
  rw [e, e1] at h h' hc
  have : (Matrix.of B : Matrix (Fin 3) (Fin 3) Int) = Matrix.of C := by
    calc (Matrix.of B : Matrix (Fin 3) (Fin 3) Int) = Matrix.of B * (Matrix.of A * Matrix.of C) := by rw [h', mul_one]
      _ = Matrix.of C := by rw [← mul_assoc, hc, one_mul]
  exact this

/-- In a primitive cell the table has the inverses. -/
theorem rotInv_spec [NeZero ns] {o : Sym N ns} (g : Group o) (hp : Primitive o) (r : Fin ns) (a : Fin N) : o.amap (o.amap a (rotInv o r)) r = a ∧ o.amap (o.amap a r) (rotInv o r) = a := by
  obtain ⟨q, hq, ha⟩ := g.inv r
  have : rotInv o r = q := by
    refine writes_value _ _ _ _ ?_ (Or.inl ?_)
    · intro w hw h1
      simp only [invWrites, List.mem_flatMap, List.mem_filter, List.mem_finRange, true_and] at hw
      obtain ⟨r1, r2, _, hw⟩ := hw
      split at hw
      · rename_i h12
        simp only [List.mem_cons, List.not_mem_nil, or_false] at hw
        rcases hw with hw | hw
        · subst hw
          subst h1
          exact hp (mul_inv_unique h12 hq)
        · subst hw
          subst h1
          exact hp (mul_inv_unique (mul_comm_one h12) hq)
      · simp at hw
    · simp only [invWrites, List.mem_flatMap, List.mem_filter, List.mem_finRange, true_and]
      rcases le_total r q with h | h
      · exact ⟨r, q, by simpa using h, by rw [if_pos hq]; simp⟩
      · exact ⟨q, r, by simpa using h, by rw [if_pos (mul_comm_one hq)]; simp⟩
  rw [this]
  exact ⟨(ha a).2, (ha a).1⟩

/-! ## Finite differences -/

theorem stepTo_pos (dr : ℝ) (st : PSt N) (h : ∀ a, st.pos a = dr • st.dPrev a) (d : Disp N) : ∀ a, (stepTo dr st d).pos a = dr • d a := by
  intro a
  simp only [stepTo, h a, smul_sub]
  abel

theorem stepTo_prev (dr : ℝ) (st : PSt N) (d : Disp N) : (stepTo dr st d).dPrev = d := rfl

theorem mulMV_zero' (M : Mat ℝ) : mulMV M (0 : V3 ℝ) = 0 := by funext k; simp [mulMV]
theorem mulMV_smul' (M : Mat ℝ) (s : ℝ) (v : V3 ℝ) : mulMV M (s • v) = s • mulMV M v := by funext k; simp [mulMV]; ring
theorem mulMV_add' (M : Mat ℝ) (v w : V3 ℝ) : mulMV M (v + w) = mulMV M v + mulMV M w := by funext k; simp [mulMV]; ring
theorem mulMV_sub' (M : Mat ℝ) (v w : V3 ℝ) : mulMV M (v - w) = mulMV M v - mulMV M w := by funext k; simp [mulMV]; ring

theorem sum_single (M : Fin N → Mat ℝ) (dr : ℝ) (m : Mode N) : ∑ b, mulMV (M b) (dr • single m b) = dr • mulMV (M m.atom) m.n := by
  rw [Finset.sum_eq_single m.atom]
  · rw [single, if_pos rfl, mulMV_smul']
  · intro b _ hb
    rw [single, if_neg hb, smul_zero, mulMV_zero']
  · intro h; exact absurd (Finset.mem_univ _) h

/-- Finite difference of a function of the displacements for one mode. -/
def difference {V : Type*} [AddCommGroup V] [Module ℝ V] (f : Disp N → V) (dr : ℝ) (central : Bool) (m : Mode N) : V :=
  if central then (0.5 / dr) • (f (fun a => dr • single m a) - f fun a => -(dr • single m a)) else (1 / dr) • (f (fun a => dr • single m a) - f fun _ => 0)

/-- What one measurement gives. -/
def respOf (grad : Disp N → Disp N) (pel : Disp N → V3 ℝ) (Z : Fin N → ℝ) (dr : ℝ) (central : Bool) (m : Mode N) : Resp N :=
  ⟨m, fun a => difference (fun u => grad u a) dr central m, difference pel dr central m - Z m.atom • m.n⟩

theorem measure_spec (grad : Disp N → Disp N) (pel : Disp N → V3 ℝ) (Z : Fin N → ℝ) (dr : ℝ) (central : Bool) (st : PSt N) (hst : ∀ a, st.pos a = dr • st.dPrev a) (m : Mode N) :
    (∀ a, (measure grad pel Z dr central (grad fun _ => 0) (pel fun _ => 0) st m).1.pos a = dr • (measure grad pel Z dr central (grad fun _ => 0) (pel fun _ => 0) st m).1.dPrev a) ∧
    (measure grad pel Z dr central (grad fun _ => 0) (pel fun _ => 0) st m).2 = respOf grad pel Z dr central m := by
  have h1 : (stepTo dr st (single m)).pos = fun a => dr • single m a := funext (stepTo_pos dr st hst _)
  have h2 : (stepTo dr (stepTo dr st (single m)) fun a => -single m a).pos = fun a => -(dr • single m a) := by
    funext a
    rw [stepTo_pos dr _ (by intro a; rw [stepTo_prev, h1]) _ a, smul_neg]
  cases central with
  | true =>
    refine ⟨?_, ?_⟩
    · intro a
      show (stepTo dr (stepTo dr st (single m)) fun a => -single m a).pos a = dr • -single m a
      rw [h2, smul_neg]
    · simp only [measure, if_true, h1, h2, respOf, difference]
  | false =>
    refine ⟨?_, ?_⟩
    · intro a
      show (stepTo dr st (single m)).pos a = dr • single m a
      rw [h1]
    · simp only [measure, Bool.false_eq_true, if_false, h1, respOf, difference]

/-- What the loop of measurements gives. -/
theorem sweep_spec (grad : Disp N → Disp N) (pel : Disp N → V3 ℝ) (Z : Fin N → ℝ) (dr : ℝ) (central : Bool) (modes : List (Mode N)) :
    (∀ a, (sweep grad pel Z dr central modes).1.pos a = 0) ∧
    (sweep grad pel Z dr central modes).2 = (modes.filter (·.isPrimary)).map (respOf grad pel Z dr central) := by
  unfold sweep
  generalize modes.filter (·.isPrimary) = l
  have key : ∀ (l : List (Mode N)) (s : PSt N × List (Resp N)), (∀ a, s.1.pos a = dr • s.1.dPrev a) →
      (∀ a, (l.foldl (fun (s : PSt N × List (Resp N)) m => let q := measure grad pel Z dr central (grad fun _ => 0) (pel fun _ => 0) s.1 m; (q.1, s.2 ++ [q.2])) s).1.pos a
        = dr • (l.foldl (fun (s : PSt N × List (Resp N)) m => let q := measure grad pel Z dr central (grad fun _ => 0) (pel fun _ => 0) s.1 m; (q.1, s.2 ++ [q.2])) s).1.dPrev a) ∧
      (l.foldl (fun (s : PSt N × List (Resp N)) m => let q := measure grad pel Z dr central (grad fun _ => 0) (pel fun _ => 0) s.1 m; (q.1, s.2 ++ [q.2])) s).2
        = s.2 ++ l.map (respOf grad pel Z dr central) := by
    intro l
    induction l with
    | nil => intro s hs; exact ⟨hs, by simp⟩
    | cons m l ih =>
      intro s hs
      obtain ⟨h1, h2⟩ := measure_spec grad pel Z dr central s.1 hs m
      have := ih ((measure grad pel Z dr central (grad fun _ => 0) (pel fun _ => 0) s.1 m).1, s.2 ++ [(measure grad pel Z dr central (grad fun _ => 0) (pel fun _ => 0) s.1 m).2]) h1
      rw [List.foldl_cons]
      refine ⟨this.1, this.2.trans ?_⟩
      simp [h2]
  obtain ⟨h1, h2⟩ := key l (⟨fun _ => 0, fun _ => 0⟩, []) (by simp)
  refine ⟨?_, ?_⟩
  · intro a
    have := stepTo_pos dr _ h1 (fun _ => 0) a
    rw [smul_zero] at this
    exact this
  · simpa using h2

/-- Differences of linear functions. -/
theorem difference_linear (f : Disp N → V3 ℝ) {dr : ℝ} (hdr : dr ≠ 0) (central : Bool) (M : Fin N → Mat ℝ)
    (h : if central then ∀ u, f u - f (fun b => -u b) = (2 : ℝ) • ∑ b, mulMV (M b) (u b) else ∀ u, f u - f (fun _ => 0) = ∑ b, mulMV (M b) (u b)) (m : Mode N) :
    difference f dr central m = mulMV (M m.atom) m.n := by
  cases central with
  | true =>
    simp only [if_true] at h
    simp only [difference, if_true]
    rw [h, sum_single, smul_smul, smul_smul, show (0.5 / dr * 2 * dr : ℝ) = 1 by field_simp; norm_num, one_smul]
  | false =>
    simp only [Bool.false_eq_true, if_false] at h
    simp only [difference, Bool.false_eq_true, if_false]
    rw [h, sum_single, smul_smul, one_div_mul_cancel hdr, one_smul]

theorem difference_harmonic (grad : Disp N → Disp N) {dr : ℝ} (hdr : dr ≠ 0) (central : Bool) (Φ : Fin N → Fin N → Mat ℝ) (hh : Harmonic grad central Φ) (m : Mode N) (a : Fin N) :
    difference (fun u => grad u a) dr central m = mulMV (Φ a m.atom) m.n := by
  refine difference_linear _ hdr central (Φ a) ?_ m
  cases central with
  | true => intro u; exact hh u a
  | false => intro u; exact hh u a

end
end Jdftx.Vib
