import Verif.Spec.ScaledField
import Verif.Lemmas.Res
import Mathlib.Tactic.Ring
import Mathlib.Tactic.FieldSimp
import Mathlib.Tactic.NormNum

/-!
# C58: a pending scale factor is not observable
-/
set_option linter.unusedSectionVars false

namespace Jdftx.SField

noncomputable section
variable {D : Type} [RCLike D]

theorem den_some {s : St (Fld D)} {t : St (List D)} (h : Rel s t) (v p : Nat) (hp : s.vars v = some p) : ∃ q, t.vars v = some q ∧ t.heap q = (s.heap p).value := by
  have := h.2.2.1 v
  unfold St.den at this
  rw [hp] at this
  cases hq : t.vars v with
  | none => rw [hq] at this; simp at this
  | some q => rw [hq] at this; exact ⟨q, rfl, by simpa using this.symm⟩

theorem den_none {s : St (Fld D)} {t : St (List D)} (h : Rel s t) (v : Nat) (hp : s.vars v = none) : t.vars v = none := by
  have := h.2.2.1 v
  unfold St.den at this
  rw [hp] at this
  cases hq : t.vars v with
  | none => rfl
  | some q => rw [hq] at this; simp at this

theorem rel_put {s : St (Fld D)} {t : St (List D)} (h : Rel s t) (v p q : Nat) (hp : s.vars v = some p) (hq : t.vars v = some q) (f : Fld D) (l : List D) (hf : f.value = l) :
    Rel (s.put p f) (t.put q l) := by
  refine ⟨h.1, h.2.1, ?_, h.2.2.2⟩
  intro w
  show (s.vars w).map _ = (t.vars w).map _
  cases hw : s.vars w with
  | none => rw [den_none h w hw]; rfl
  | some p' =>
    obtain ⟨q', hq', hv⟩ := den_some h w p' hw
    rw [hq']
    have hal := h.2.2.2 v w (by rw [hp]; rfl)
    rw [hp, hw, hq, hq'] at hal
    simp only [Option.some.injEq] at hal
    simp only [Option.map_some, St.put, id]
    by_cases e : p' = p
    · have e' : q' = q := (hal.1 e.symm).symm
      rw [if_pos e, if_pos e', hf]
    · have e' : q' ≠ q := fun hh => e (hal.2 hh.symm).symm
      rw [if_neg e, if_neg e', hv]

theorem rel_new {s : St (Fld D)} {t : St (List D)} (h : Rel s t) (v : Nat) (f : Fld D) (l : List D) (hf : f.value = l) : Rel (s.new v f) (t.new v l) := by
  obtain ⟨w1, w2, h1, h2⟩ := h
  have hh : Rel s t := ⟨w1, w2, h1, h2⟩
  refine ⟨?_, ?_, ?_, ?_⟩
  · intro w p hp
    simp only [St.new] at hp ⊢
    split at hp
    · simp only [Option.some.injEq] at hp; omega
    · have := w1 w p hp; omega
  · intro w p hp
    simp only [St.new] at hp ⊢
    split at hp
    · simp only [Option.some.injEq] at hp; omega
    · have := w2 w p hp; omega
  · intro w
    show (St.vars _ w).map _ = (St.vars _ w).map _
    by_cases e : w = v
    · simp only [St.new, if_pos e, Option.map_some, if_true, id, hf]
    · simp only [St.new, if_neg e]
      cases hw : s.vars w with
      | none => rw [den_none hh w hw]; rfl
      | some p =>
        obtain ⟨q, hq, hv⟩ := den_some hh w p hw
        have e1 : p ≠ s.next := by have := w1 w p hw; omega
        have e2 : q ≠ t.next := by have := w2 w q hq; omega
        rw [hq]
        simp only [Option.map_some, if_neg e1, if_neg e2, id, hv]
  · intro a b ha
    simp only [St.new] at ha ⊢
    by_cases ea : a = v <;> by_cases eb : b = v
    · simp [ea, eb]
    · simp only [if_pos ea, if_neg eb]
      constructor
      · intro hx; have := w1 b s.next hx.symm; omega
      · intro hx; have := w2 b t.next hx.symm; omega
    · simp only [if_pos eb, if_neg ea]
      constructor
      · intro hx; have := w1 a s.next hx; omega
      · intro hx; have := w2 a t.next hx; omega
    · rw [if_neg ea] at ha
      simp only [if_neg ea, if_neg eb]
      exact h2 a b ha

theorem rel_bind {s : St (Fld D)} {t : St (List D)} (h : Rel s t) (v : Nat) (src : Nat) : Rel (s.bind v (s.vars src)) (t.bind v (t.vars src)) := by
  obtain ⟨w1, w2, h1, h2⟩ := h
  have hh : Rel s t := ⟨w1, w2, h1, h2⟩
  have h2' : ∀ a b, s.vars a = s.vars b ↔ t.vars a = t.vars b := by
    intro a b
    cases ha : s.vars a with
    | some p => rw [← ha]; exact h2 a b (by rw [ha]; rfl)
    | none =>
      rw [den_none hh a ha]
      cases hb : s.vars b with
      | none => rw [den_none hh b hb]
      | some p =>
        obtain ⟨q, hq, _⟩ := den_some hh b p hb
        rw [hq]; simp
  refine ⟨?_, ?_, ?_, ?_⟩
  · intro w p hp
    simp only [St.bind] at hp ⊢
    split at hp
    · exact w1 _ _ hp
    · exact w1 _ _ hp
  · intro w p hp
    simp only [St.bind] at hp ⊢
    split at hp
    · exact w2 _ _ hp
    · exact w2 _ _ hp
  · intro w
    have := h1 src
    have := h1 w
    simp only [St.den, St.bind] at *
    split <;> assumption
  · intro a b _
    simp only [St.bind]
    split <;> split <;> exact h2' _ _

theorem rel_null {s : St (Fld D)} {t : St (List D)} (h : Rel s t) (v : Nat) : Rel (s.bind v none) (t.bind v none) := by
  obtain ⟨w1, w2, h1, h2⟩ := h
  have hh : Rel s t := ⟨w1, w2, h1, h2⟩
  refine ⟨?_, ?_, ?_, ?_⟩
  · intro w p hp
    simp only [St.bind] at hp ⊢
    split at hp
    · simp at hp
    · exact w1 _ _ hp
  · intro w p hp
    simp only [St.bind] at hp ⊢
    split at hp
    · simp at hp
    · exact w2 _ _ hp
  · intro w
    have := h1 w
    simp only [St.den, St.bind] at *
    split
    · rfl
    · assumption
  · intro a b ha
    simp only [St.bind] at ha ⊢
    by_cases ea : a = v
    · rw [if_pos ea] at ha; simp at ha
    · rw [if_neg ea] at ha
      simp only [if_neg ea]
      by_cases eb : b = v
      · simp only [if_pos eb]
        obtain ⟨p, hp⟩ := Option.isSome_iff_exists.1 ha
        obtain ⟨q, hq, _⟩ := den_some hh a p hp
        rw [hp, hq]; simp
      · simp only [if_neg eb]; exact h2 a b ha

/-- The one place where a variable is made to point to new data while plain fields are changed in place. -/
theorem rel_move {s : St (Fld D)} {t : St (List D)} (h : Rel s t) (v p q : Nat) (hp : s.vars v = some p) (hq : t.vars v = some q) (halone : ∀ w, w ≠ v → s.vars w ≠ some p)
    (f : Fld D) (l : List D) (hf : f.value = l) : Rel (s.new v f) (t.put q l) := by
  obtain ⟨w1, w2, h1, h2⟩ := h
  have hh : Rel s t := ⟨w1, w2, h1, h2⟩
  have haloneT : ∀ w, w ≠ v → t.vars w ≠ some q := by
    intro w hw hx
    have := (h2 v w (by rw [hp]; rfl)).2 (by rw [hq, hx])
    exact halone w hw (by rw [← this, hp])
  refine ⟨?_, w2, ?_, ?_⟩
  · intro w p hp
    simp only [St.new] at hp ⊢
    split at hp
    · simp only [Option.some.injEq] at hp; omega
    · have := w1 w p hp; omega
  · intro w
    show (St.vars _ w).map _ = (St.vars _ w).map _
    by_cases e : w = v
    · subst e
      simp only [St.new, St.put, if_true, Option.map_some, hq, id, hf]
    · simp only [St.new, St.put, if_neg e]
      cases hw : s.vars w with
      | none => rw [den_none hh w hw]; rfl
      | some p' =>
        obtain ⟨q', hq', hv⟩ := den_some hh w p' hw
        have e1 : p' ≠ s.next := by have := w1 w p' hw; omega
        have e2 : q' ≠ q := fun hx => haloneT w e (by rw [hq', hx])
        rw [hq']
        simp only [Option.map_some, if_neg e1, if_neg e2, id, hv]
  · intro a b ha
    simp only [St.new, St.put] at ha ⊢
    by_cases ea : a = v <;> by_cases eb : b = v
    · simp [ea, eb]
    · simp only [if_pos ea, if_neg eb]
      rw [ea, hq]
      constructor
      · intro hx; have := w1 b s.next hx.symm; omega
      · intro hx; exact absurd hx.symm (haloneT b eb)
    · simp only [if_pos eb, if_neg ea]
      rw [eb, hq]
      constructor
      · intro hx; have := w1 a s.next hx; omega
      · intro hx; exact absurd hx (haloneT a ea)
    · rw [if_neg ea] at ha
      simp only [if_neg ea, if_neg eb]
      exact h2 a b ha

theorem absorb_value (f : Fld D) : (absorb f).value = f.value ∧ (absorb f).data = f.value ∧ (absorb f).scale = 1 := by
  unfold absorb
  by_cases h : f.scale = 1
  · rw [if_neg (by simpa using h)]
    refine ⟨rfl, ?_, h⟩
    simp [Fld.value, h]
  · rw [if_pos (by simpa using h)]
    refine ⟨?_, rfl, rfl⟩
    simp [Fld.value]

theorem value_scale (f : Fld D) (c : ℝ) : ({ f with scale := f.scale * c } : Fld D).value = f.value.map fun x => (c : D) * x := by
  simp only [Fld.value, List.map_map]
  refine List.map_congr_left fun x _ => ?_
  simp only [Function.comp_apply]
  push_cast
  ring

theorem value_mul (f g : Fld D) : (⟨f.scale * g.scale, mulLoop g.data f.data⟩ : Fld D).value = List.zipWith (· * ·) f.value g.value := by
  simp only [Fld.value, mulLoop, List.map_zipWith, List.zipWith_map]
  rw [List.zipWith_comm]
  congr 1
  funext x y
  push_cast
  ring

theorem value_axpy (c : ℝ) (f g : Fld D) (hg : g.scale ≠ 0) :
    ({ g with data := axpyLoop (c * f.scale / g.scale) f.data g.data } : Fld D).value = List.zipWith (fun x y => y + (c : D) * x) f.value g.value := by
  have hg' : (g.scale : D) ≠ 0 := RCLike.ofReal_ne_zero.2 hg
  simp only [Fld.value, axpyLoop, List.map_zipWith, List.zipWith_map]
  congr 1
  funext x y
  push_cast
  field_simp

theorem value_axpy_zero (c : ℝ) (f g : Fld D) (hg : g.scale = 0) (hlen : f.data.length = g.data.length) :
    ({ f with scale := f.scale * c } : Fld D).value = List.zipWith (fun x y => y + (c : D) * x) f.value g.value := by
  rw [value_scale]
  have : g.value = List.replicate f.value.length 0 := by
    rw [Fld.value, hg]
    simp [Fld.value, hlen, List.map_const']
  rw [this]
  generalize f.value = l
  clear this
  induction l with
  | nil => rfl
  | cons x l ih => simp only [List.length_cons, List.replicate_succ, List.zipWith_cons_cons, List.map_cons, zero_add, ih]

theorem value_inv (f : Fld D) : (⟨1, f.data.map fun x => ((1 / f.scale : ℝ) : D) / x⟩ : Fld D).value = f.value.map fun x => x⁻¹ := by
  simp only [Fld.value, List.map_map]
  refine List.map_congr_left fun x _ => ?_
  simp only [Function.comp_apply]
  push_cast
  rw [mul_inv]
  simp [div_eq_mul_inv]

theorem zero_mem_value (f : Fld D) : (0 : D) ∈ f.value ↔ ∃ x ∈ f.data, f.scale = 0 ∨ x = 0 := by
  simp only [Fld.value, List.mem_map, mul_eq_zero, RCLike.ofReal_eq_zero]

theorem value_map (f : Fld D) (F : D → D) : (⟨1, f.data.map fun x => F ((f.scale : D) * x)⟩ : Fld D).value = f.value.map F := by
  simp [Fld.value, Function.comp_def]

theorem value_setFirst (f : Fld D) (F G : D → D) (h : ∀ x, (f.scale : D) * F x = G ((f.scale : D) * x)) :
    ({ f with data := setFirst F f.data } : Fld D).value = setFirst G f.value := by
  unfold Fld.value
  cases f.data with
  | nil => rfl
  | cons x l => simp only [setFirst, List.map_cons, h]

theorem putRe_scale (g c : ℝ) (hc : c ≠ 0) (x : D) : (c : D) * putRe (g / c) x = putRe g ((c : D) * x) := by
  have hc' : (c : D) ≠ 0 := RCLike.ofReal_ne_zero.2 hc
  unfold putRe
  rw [RCLike.im_ofReal_mul]
  push_cast
  field_simp

theorem value_conj (f : Fld D) : ({ f with data := f.data.map (starRingEnd D) } : Fld D).value = f.value.map (starRingEnd D) := by
  simp [Fld.value, Function.comp_def]

theorem agree_get {s : St (Fld D)} {t : St (List D)} (h : Rel s t) (v : Nat) (k : Nat × Fld D → Res (St (Fld D))) (k' : Nat × List D → Res (St (List D)))
    (hk : ∀ p q, s.vars v = some p → t.vars v = some q → t.heap q = (s.heap p).value → Agree (k (p, s.heap p)) (k' (q, t.heap q))) : Agree (s.get v >>= k) (t.get v >>= k') := by
  cases hv : s.vars v with
  | none =>
    have : s.get v = .error .ub := by unfold St.get; rw [hv]
    rw [this]
    have : t.get v = .error .ub := by unfold St.get; rw [den_none h v hv]
    rw [this]
    exact Or.inr ⟨.ub, rfl, rfl⟩
  | some p =>
    obtain ⟨q, hq, hval⟩ := den_some h v p hv
    have e1 : s.get v = .ok (p, s.heap p) := by unfold St.get; rw [hv]
    have e2 : t.get v = .ok (q, t.heap q) := by unfold St.get; rw [hq]
    rw [e1, e2]
    exact hk p q hv hq hval

theorem agree_ok {s : St (Fld D)} {t : St (List D)} (h : Rel s t) : Agree (.ok s) (.ok t) := Or.inl ⟨s, t, rfl, rfl, h⟩

/-- **C58**, one operation. -/
theorem step_agree {s : St (Fld D)} {t : St (List D)} (h : Rel s t) (o : Op D) (ha : Allowed s o) : Agree (step s o) (plain t o) := by
  cases o with
  | assign dst src => exact agree_ok (rel_bind h dst src)
  | reset v => exact agree_ok (rel_null h v)
  | alloc v n =>
    simp only [step, plain]
    cases hv : s.vars v with
    | some p =>
      obtain ⟨q, hq, _⟩ := den_some h v p hv
      rw [hq]; exact agree_ok h
    | none => rw [den_none h v hv]; exact agree_ok (rel_new h v _ _ (by simp [Fld.value]))
  | clone dst src =>
    simp only [step, plain]
    cases hv : s.vars src with
    | some p =>
      obtain ⟨q, hq, hval⟩ := den_some h src p hv
      rw [hq]; exact agree_ok (rel_new h dst _ _ hval.symm)
    | none => rw [den_none h src hv]; exact agree_ok (rel_null h dst)
  | scale v c =>
    simp only [step, plain]
    cases hv : s.vars v with
    | some p =>
      obtain ⟨q, hq, hval⟩ := den_some h v p hv
      rw [hq]; exact agree_ok (rel_put h v p q hv hq _ _ (by rw [hval, value_scale]))
    | none => rw [den_none h v hv]; exact agree_ok h
  | mulCopy dst src c =>
    refine agree_get h src _ _ fun p q hp hq hval => ?_
    exact agree_ok (rel_new h dst _ _ (by rw [hval, value_scale]))
  | mul v w =>
    refine agree_get h v _ _ fun p q hp hq hval => ?_
    refine agree_get h w _ _ fun p' q' hp' hq' hval' => ?_
    exact agree_ok (rel_put h v p q hp hq _ _ (by rw [hval, hval', value_mul]))
  | axpy c x y =>
    simp only [step, plain]
    cases hx : s.vars x with
    | none => rw [den_none h x hx]; exact agree_ok h
    | some p =>
      obtain ⟨q, hq, hval⟩ := den_some h x p hx
      rw [hq]
      simp only
      cases hy : s.vars y with
      | none => rw [den_none h y hy]; exact agree_ok (rel_new h y _ _ (by rw [hval, value_scale]))
      | some p' =>
        obtain ⟨q', hq', hval'⟩ := den_some h y p' hy
        rw [hq']
        simp only
        obtain ⟨hlen, halone⟩ := ha p p' hx hy
        by_cases hz : (s.heap p').scale = 0
        · rw [if_pos hz]
          exact agree_ok (rel_move h y p' q' hy hq' (halone hz) _ _ (by rw [hval, hval', value_axpy_zero c _ _ hz hlen]))
        · rw [if_neg hz]
          exact agree_ok (rel_put h y p' q' hy hq' _ _ (by rw [hval, hval', value_axpy c _ _ hz]))
  | addScalar v c =>
    refine agree_get h v _ _ fun p q hp hq hval => ?_
    obtain ⟨_, a2, a3⟩ := absorb_value (s.heap p)
    exact agree_ok (rel_put h v p q hp hq _ _ (by rw [hval, a2, a3]; simp [Fld.value]))
  | map v F =>
    refine agree_get h v _ _ fun p q hp hq hval => ?_
    exact agree_ok (rel_put h v p q hp hq _ _ (by rw [hval, value_map]))
  | inv v =>
    refine agree_get h v _ _ fun p q hp hq hval => ?_
    have hz := zero_mem_value (s.heap p)
    rw [← hval] at hz
    simp only
    by_cases hc : ∃ x ∈ (s.heap p).data, (s.heap p).scale = 0 ∨ x = 0
    · rw [if_pos hc, if_pos (hz.2 hc)]
      exact Or.inr ⟨.ub, rfl, rfl⟩
    · rw [if_neg hc, if_neg (fun hh => hc (hz.1 hh))]
      exact agree_ok (rel_put h v p q hp hq _ _ (by rw [hval, value_inv]))
  | conj v =>
    refine agree_get h v _ _ fun p q hp hq hval => ?_
    exact agree_ok (rel_put h v p q hp hq _ _ (by rw [hval, value_conj]))
  | lin dst src T =>
    refine agree_get h src _ _ fun p q hp hq hval => ?_
    exact agree_ok (rel_new h dst _ _ (by rw [hval]; exact (ha _ _).symm))
  | setGzero v g =>
    refine agree_get h v _ _ fun p q hp hq hval => ?_
    refine agree_ok (rel_put h v p q hp hq _ _ ?_)
    simp only
    by_cases hz : (s.heap p).scale = 0
    · obtain ⟨a1, a2, a3⟩ := absorb_value (s.heap p)
      rw [if_pos hz, value_setFirst _ _ (fun _ => g) (by intro x; rw [a3]; simp), a1, hval]
    · have hz' : ((s.heap p).scale : D) ≠ 0 := RCLike.ofReal_ne_zero.2 hz
      rw [if_neg hz, value_setFirst _ _ (fun _ => g) (by intro x; push_cast; field_simp), hval]
  | setGzeroReal v g =>
    refine agree_get h v _ _ fun p q hp hq hval => ?_
    refine agree_ok (rel_put h v p q hp hq _ _ ?_)
    simp only
    by_cases hz : (s.heap p).scale = 0
    · obtain ⟨a1, a2, a3⟩ := absorb_value (s.heap p)
      rw [if_pos hz, value_setFirst _ _ (putRe g) (by intro x; rw [putRe_scale g _ (by rw [a3]; norm_num)]), a1, hval]
      rfl
    · rw [if_neg hz, value_setFirst _ _ (putRe g) (fun x => putRe_scale g _ hz x), hval]
      rfl
  | zero v =>
    refine agree_get h v _ _ fun p q hp hq hval => ?_
    exact agree_ok (rel_put h v p q hp hq _ _ (by rw [hval]; simp [Fld.value, Function.comp_def]))
  | read v =>
    cases hv : s.vars v with
    | none =>
      have e1 : s.get v = .error .ub := by unfold St.get; rw [hv]
      have e2 : t.get v = .error .ub := by unfold St.get; rw [den_none h v hv]
      simp only [step, plain, e1, e2]
      exact Or.inr ⟨.ub, rfl, rfl⟩
    | some p =>
      obtain ⟨q, hq, hval⟩ := den_some h v p hv
      have e1 : s.get v = .ok (p, s.heap p) := by unfold St.get; rw [hv]
      have e2 : t.get v = .ok (q, t.heap q) := by unfold St.get; rw [hq]
      simp only [step, plain, e1, e2]
      have hput : t.put q (t.heap q) = t := by
        unfold St.put
        have : (fun q' => if q' = q then t.heap q else t.heap q') = t.heap := by
          funext q'; split
          · rename_i hh; rw [hh]
          · rfl
        rw [this]
      have := rel_put h v p q hv hq (absorb (s.heap p)) (t.heap q) (by rw [hval, (absorb_value _).1])
      rw [hput] at this
      exact agree_ok this

/-- **C58.** For every sequence of operations on fields, carried out with pending scale factors or with plain fields: both stop alike, or both end with
the same contents of every variable and the same variables sharing data. The one exception is adding to a field with factor zero that another variable
shares. -/
theorem C58_programs_partial (os : List (Op D)) : ∀ (s : St (Fld D)) (t : St (List D)), Rel s t → AllAllowed s os → Agree (run s os) (runPlain t os) := by
  induction os with
  | nil => intro s t h _; exact agree_ok h
  | cons o os ih =>
    intro s t h ha
    simp only [run, runPlain]
    rcases step_agree h o ha.1 with ⟨s', t', e1, e2, h'⟩ | ⟨e, e1, e2⟩
    · rw [e1, e2]; exact ih s' t' h' (ha.2 s' e1)
    · rw [e1, e2]; exact Or.inr ⟨e, rfl, rfl⟩

/-- The starting states agree. -/
theorem C58_start : Rel (start (⟨1, []⟩ : Fld D)) (start ([] : List D)) :=
  ⟨fun v p h => by simp [start] at h, fun v p h => by simp [start] at h, fun v => rfl, fun v w h => by simp [start] at h⟩

/-! ### Values -/

/-- **C58**, inner products and sums of real fields. -/
theorem C58_real (f g : Fld ℝ) : dotReal f g = (List.zipWith (· * ·) f.value g.value).sum ∧ nrm2Real f = Real.sqrt (f.value.map fun x => x ^ 2).sum ∧ sumReal f = f.value.sum := by
  refine ⟨?_, ?_, ?_⟩
  · unfold dotReal Fld.value
    rw [List.zipWith_map]
    generalize f.data = l
    generalize g.data = m
    induction l generalizing m with
    | nil => simp
    | cons x l ih =>
      cases m with
      | nil => simp
      | cons y m =>
        simp only [List.zipWith_cons_cons, List.sum_cons, mul_add, ih m]
        simp only [RCLike.ofReal_real_eq_id, id]
        ring
  · unfold nrm2Real
    have : (f.value.map fun x => x ^ 2).sum = f.scale ^ 2 * (f.data.map fun x => x ^ 2).sum := by
      unfold Fld.value
      rw [List.map_map]
      induction f.data with
      | nil => simp
      | cons x l ih =>
        rw [List.map_cons, List.sum_cons, ih, List.map_cons, List.sum_cons]
        simp only [Function.comp_apply, RCLike.ofReal_real_eq_id, id]
        ring
    rw [this, Real.sqrt_mul (sq_nonneg _), Real.sqrt_sq_eq_abs]
  · unfold sumReal Fld.value
    congr 1
    refine List.map_congr_left fun x _ => ?_
    simp [mul_comm]

/-- **C58**, inner products, norms and sums of complex fields, and the component at zero. -/
theorem C58_complex (f g : Fld D) (detR : ℝ) : dotComplex f g = (List.zipWith (fun x y => starRingEnd D x * y) f.value g.value).sum ∧
    nrm2Complex f = Real.sqrt (f.value.map fun x => RCLike.normSq x).sum ∧ sumComplex f = f.value.sum ∧
      getGzero f = f.value.headD 0 ∧ integralG detR f = f.value.headD 0 * (detR : D) := by
  refine ⟨?_, ?_, ?_, ?_, ?_⟩
  · unfold dotComplex; rw [(absorb_value f).2.1, (absorb_value g).2.1]
  · unfold nrm2Complex; rw [(absorb_value f).2.1]
  · unfold sumComplex; rw [(absorb_value f).2.1]; simp
  · unfold getGzero Fld.value
    cases f.data with
    | nil => simp
    | cons x l => simp [mul_comm]
  · unfold integralG Fld.value
    cases f.data with
    | nil => simp
    | cons x l => simp only [List.headD_cons, List.map_cons]; ring

theorem zdotc_scale (N : Nat) (a b : ℝ) (X Y : Box.Arr) (i j : Nat) : Box.zdotc N (fun k => (a : ℂ) * X k) i (fun k => (b : ℂ) * Y k) j = ((a * b : ℝ) : ℂ) * Box.zdotc N X i Y j := by
  unfold Box.zdotc
  rw [Finset.mul_sum]
  refine Finset.sum_congr rfl fun k _ => ?_
  simp only [map_mul, Complex.conj_ofReal]
  push_cast
  ring

/-- **C58**, reductions of reciprocal-space fields of real ones. -/
theorem C58_half (S : Box.Size) (a b : ℝ) (X Y : Box.Arr) :
    dotHalfScaled S a b X Y = Box.dotHalf S (fun k => (a : ℂ) * X k) (fun k => (b : ℂ) * Y k) ∧ nrm2HalfScaled S a X = Box.nrm2Half S (fun k => (a : ℂ) * X k) ∧
      sumHalfScaled S a X = Box.sumHalf S (fun k => (a : ℂ) * X k) := by
  have hshift : ∀ (c : ℝ) (Z : Box.Arr) (k : Nat), Box.shift (fun i => (c : ℂ) * Z i) k = fun i => (c : ℂ) * Box.shift Z k i := fun c Z k => rfl
  have hone : (fun _ => 1 : Box.Arr) = fun _ => ((1 : ℝ) : ℂ) * 1 := by funext i; simp
  refine ⟨?_, ?_, ?_⟩
  · unfold dotHalfScaled Box.dotHalf
    simp only [hshift, zdotc_scale]
    rw [← Complex.re_ofReal_mul]
    congr 1
    split <;> (push_cast; ring)
  · have hn : ∀ N (Z : Box.Arr) i, Box.znrm2sq N (fun k => (a : ℂ) * Z k) i = a ^ 2 * Box.znrm2sq N Z i := by
      intro N Z i
      unfold Box.znrm2sq
      rw [Finset.mul_sum]
      refine Finset.sum_congr rfl fun k _ => ?_
      rw [map_mul, Complex.normSq_ofReal]
      ring
    unfold nrm2HalfScaled Box.nrm2Half
    simp only [hshift, hn]
    rw [← Real.sqrt_sq_eq_abs, ← Real.sqrt_mul (sq_nonneg _)]
    congr 1
    split <;> ring
  · unfold sumHalfScaled Box.sumHalf
    simp only [hshift]
    rw [hone]
    simp only [zdotc_scale]
    have e : ∀ N (Z : Box.Arr) i, Box.zdotc N Z i (fun _ => ((1 : ℝ) : ℂ) * 1) 0 = Box.zdotc N Z i (fun _ => 1) 0 := by intro N Z i; rw [← hone]
    simp only [e]
    rw [← Complex.re_ofReal_mul]
    congr 1
    split <;> (push_cast; ring)

/-! ### Shared fields with factor zero -/

/-- Two variables share a field; it is multiplied by zero and then another field added. -/
def sharedProgram : List (Op ℝ) := [.alloc 0 1, .addScalar 0 1, .alloc 1 1, .addScalar 1 5, .assign 2 1, .scale 1 0, .axpy 1 0 1]

/-- The exception is real: with plain fields both variables that share the field see the sum, with scale factors one of them stays zero. -/
theorem C58_shared_violation : ∃ s t, run (start ⟨1, []⟩) sharedProgram = .ok s ∧ runPlain (start []) sharedProgram = .ok t ∧
    s.den Fld.value 2 = some [0] ∧ t.den id 2 = some [1] ∧ s.den Fld.value 1 = some [1] ∧ t.den id 1 = some [1] := by
  simp [run, runPlain, sharedProgram, step, plain, start, St.new, St.put, St.bind, St.get, St.den, absorb, Fld.value, Res.bind_ok, List.replicate, pure, Except.pure]

/-- Without sharing the same steps are fine. -/
example : Agree (run (start (⟨1, []⟩ : Fld ℝ)) [.alloc 0 1, .addScalar 0 1, .alloc 1 1, .scale 1 0, .axpy 1 0 1]) (runPlain (start []) [.alloc 0 1, .addScalar 0 1, .alloc 1 1, .scale 1 0, .axpy 1 0 1]) :=
  C58_programs_partial _ _ _ C58_start (by
    simp [AllAllowed, Allowed, step, start, St.new, St.put, St.get, absorb, Res.bind_ok, List.replicate, pure, Except.pure])

end

end Jdftx.SField
