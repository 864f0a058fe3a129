import Verif.Model.Embed
import Verif.Lemmas.Res
import Verif.Lemmas.Box
import Verif.Props.WignerSeitz
import Mathlib.Data.List.Basic
import Mathlib.Data.List.Perm.Basic
import Mathlib.Algebra.BigOperators.Field

/-! # Lemmas for the embedding of truncated Coulomb interactions -/
namespace Jdftx.Embed
open Jdftx.Box Jdftx.M3 Jdftx.WS
noncomputable section
open Classical

/-! ### The multimap and its runs -/

theorem mmInsert_perm (p : Int × Nat) (l : List (Int × Nat)) : (mmInsert p l).Perm (p :: l) := by
  induction l with
  | nil => exact .refl _
  | cons q t ih =>
    unfold mmInsert
    split
    · exact .refl _
    · exact (ih.cons q).trans (.swap p q t)

theorem mmInsert_sorted (p : Int × Nat) (l : List (Int × Nat)) (h : l.Pairwise fun a b => a.1 ≤ b.1) :
    (mmInsert p l).Pairwise fun a b => a.1 ≤ b.1 := by
  induction l with
  | nil => simp [mmInsert]
  | cons q t ih =>
    rw [List.pairwise_cons] at h
    unfold mmInsert
    split
    · next hlt =>
      refine List.pairwise_cons.2 ⟨fun a ha => ?_, List.pairwise_cons.2 h⟩
      rcases List.mem_cons.1 ha with rfl | ha
      · exact hlt.le
      · exact hlt.le.trans (h.1 a ha)
    · next hle =>
      refine List.pairwise_cons.2 ⟨fun a ha => ?_, ih h.2⟩
      rcases List.mem_cons.1 ((mmInsert_perm p t).mem_iff.1 ha) with rfl | ha
      · exact not_lt.1 hle
      · exact h.1 a ha

theorem multimap_aux (arrival m : List (Int × Nat)) (h : m.Pairwise fun a b => a.1 ≤ b.1) :
    (arrival.foldl (fun m p => mmInsert p m) m).Perm (arrival ++ m) ∧
    (arrival.foldl (fun m p => mmInsert p m) m).Pairwise fun a b => a.1 ≤ b.1 := by
  induction arrival generalizing m with
  | nil => exact ⟨.refl _, h⟩
  | cons p t ih =>
    obtain ⟨a, b⟩ := ih (mmInsert p m) (mmInsert_sorted p m h)
    refine ⟨a.trans ?_, b⟩
    exact ((mmInsert_perm p m).append_left t).trans List.perm_middle

theorem multimap_perm (l : List (Int × Nat)) : (multimap l).Perm l := by
  have := (multimap_aux l [] .nil).1
  simpa [multimap] using this

theorem multimap_sorted (l : List (Int × Nat)) : (multimap l).Pairwise fun a b => a.1 ≤ b.1 :=
  (multimap_aux l [] .nil).2

/-- The runs of a sorted list are its entries collected by key. -/
theorem runs_eq : ∀ (n : Nat) (L : List (Int × Nat)), L.length ≤ n → (L.Pairwise fun a b => a.1 ≤ b.1) →
    ∃ ks : List Int, ks.Nodup ∧ (∀ k, k ∈ ks ↔ ∃ p ∈ L, p.1 = k) ∧
      runs L = ks.map fun k => (L.filter fun q => q.1 = k).map Prod.snd := by
  intro n
  induction n with
  | zero =>
    intro L h _
    have : L = [] := by simpa using h
    subst this
    exact ⟨[], List.nodup_nil, by simp, by simp [runs]⟩
  | succ n ih =>
    intro L h hs
    cases L with
    | nil => exact ⟨[], List.nodup_nil, by simp, by simp [runs]⟩
    | cons p t =>
      rw [List.pairwise_cons] at hs
      have hsub : (t.dropWhile fun q => decide (q.1 = p.1)).Sublist t := List.dropWhile_sublist _
      have hd : (t.dropWhile fun q => decide (q.1 = p.1)).Pairwise fun a b => a.1 ≤ b.1 := hs.2.sublist hsub
      have hsplit : t.takeWhile (fun q => decide (q.1 = p.1)) ++ t.dropWhile (fun q => decide (q.1 = p.1)) = t :=
        List.takeWhile_append_dropWhile
      have htake : ∀ q ∈ t.takeWhile (fun q => decide (q.1 = p.1)), q.1 = p.1 := by
        intro q hq
        have := List.all_eq_true.1 (List.all_takeWhile (l := t) (p := fun q => decide (q.1 = p.1))) q hq
        simpa using this
      have hgt : ∀ q ∈ t.dropWhile (fun q => decide (q.1 = p.1)), p.1 < q.1 := by
        intro q hq
        rcases hdw : t.dropWhile (fun q => decide (q.1 = p.1)) with _ | ⟨q0, d⟩
        · rw [hdw] at hq; simp at hq
        · have h0 : ¬ q0.1 = p.1 := by
            have := List.head_dropWhile_not (fun q : Int × Nat => decide (q.1 = p.1)) (l := t) (by rw [hdw]; simp)
            simp only [hdw, List.head_cons, decide_eq_false_iff_not] at this
            exact this
          have hq0 : q0 ∈ t := hsub.subset (by rw [hdw]; simp)
          have h1 : p.1 < q0.1 := lt_of_le_of_ne (hs.1 q0 hq0) (fun e => h0 e.symm)
          rw [hdw] at hq hd
          rcases List.mem_cons.1 hq with rfl | hq
          · exact h1
          · exact h1.trans_le ((List.pairwise_cons.1 hd).1 q hq)
      have hlen : (t.dropWhile fun q => decide (q.1 = p.1)).length ≤ n := by
        have := hsub.length_le
        simp only [List.length_cons] at h
        omega
      obtain ⟨ks, h1, h2, h3⟩ := ih _ hlen hd
      refine ⟨p.1 :: ks, ?_, ?_, ?_⟩
      · refine List.nodup_cons.2 ⟨fun hk => ?_, h1⟩
        obtain ⟨q, hq, e⟩ := (h2 _).1 hk
        have := hgt q hq
        omega
      · intro k
        rw [List.mem_cons, h2]
        constructor
        · rintro (rfl | ⟨q, hq, e⟩)
          · exact ⟨p, by simp, rfl⟩
          · exact ⟨q, List.mem_cons_of_mem _ (hsub.subset hq), e⟩
        · rintro ⟨q, hq, e⟩
          rcases List.mem_cons.1 hq with rfl | hq
          · exact .inl e.symm
          · rw [← hsplit] at hq
            rcases List.mem_append.1 hq with hq | hq
            · exact .inl (by rw [← e]; exact htake q hq)
            · exact .inr ⟨q, hq, e⟩
      · rw [runs, h3, List.map_cons]
        congr 1
        · rw [List.filter_cons_of_pos (by simp), List.map_cons]
          congr 2
          conv_rhs => rw [← hsplit]
          rw [List.filter_append, List.filter_eq_self.2, List.filter_eq_nil_iff.2, List.append_nil]
          · intro q hq; simpa using (hgt q hq).ne'
          · intro q hq; simpa using htake q hq
        · apply List.map_congr_left
          intro k hk
          obtain ⟨q, hq, e⟩ := (h2 k).1 hk
          have hpk : ¬ p.1 = k := by have := hgt q hq; omega
          rw [List.filter_cons_of_neg (by simpa using hpk)]
          congr 1
          conv_rhs => rw [← hsplit]
          rw [List.filter_append, (List.filter_eq_nil_iff (l := t.takeWhile _)).2, List.nil_append]
          intro q' hq'; simpa using (htake q' hq') ▸ hpk

/-! ### Averaging over disjoint classes -/

/-- Average over one class. -/
def classAvg (x : Fld) (c : List Nat) : Fld := fun p => if p ∈ c then (c.map x).sum * (1 / (c.length : ℂ)) else x p

theorem foldl_update (c : List Nat) (s : ℂ) (x : Fld) :
    c.foldl (fun x p => Function.update x p s) x = fun p => if p ∈ c then s else x p := by
  induction c generalizing x with
  | nil => simp
  | cons q t ih =>
    rw [List.foldl_cons, ih]
    funext p
    by_cases hp : p ∈ t
    · simp [hp]
    · by_cases hq : p = q
      · subst hq; simp [hp]
      · simp [hp, hq]

theorem mapM_some {α β : Type} (f : α → Option β) (g : α → β) (l : List α) (h : ∀ j ∈ l, f j = some (g j)) :
    l.mapM f = some (l.map g) := by
  induction l with
  | nil => simp
  | cons a t ih =>
    rw [List.mapM_cons, h a (by simp), ih fun j hj => h j (by simp [hj])]
    simp

theorem mapM_slice (idx : List Nat) (c pre post : List Nat) (h : idx = pre ++ (c ++ post)) :
    ((List.range c.length).mapM fun j => idx[pre.length + j]?) = some c := by
  have : ∀ j ∈ List.range c.length, idx[pre.length + j]? = some (c[j]?.getD 0) := by
    intro j hj
    rw [List.mem_range] at hj
    rw [h, List.getElem?_append_right (by omega), List.getElem?_append_left (by omega)]
    simp [hj]
  rw [mapM_some _ _ _ this]
  congr 1
  apply List.ext_getElem
  · simp
  · intro i h1 h2; simp [h2]

theorem symCalc_eq (nE n : Nat) (cs : List (List Nat)) (pre : List (List Nat)) (c : List Nat) (post : List (List Nat))
    (hcs : cs = pre ++ c :: post) (hn : ∀ d ∈ cs, d.length = n) (hr : ∀ p ∈ c, p < nE) (x : Fld) :
    symCalc nE n cs.flatten pre.length x = .ok (classAvg x c) := by
  have hc : c.length = n := hn c (by simp [hcs])
  have hpre : pre.flatten.length = n * pre.length := by
    have : ∀ l : List (List Nat), (∀ d ∈ l, d.length = n) → l.flatten.length = n * l.length := by
      intro l
      induction l with
      | nil => simp
      | cons a t ih =>
        intro h
        rw [List.flatten_cons, List.length_append, ih fun d hd => h d (by simp [hd]), h a (by simp), List.length_cons]
        ring
    exact this pre fun d hd => hn d (by simp [hcs, hd])
  have := mapM_slice cs.flatten c pre.flatten post.flatten (by rw [hcs]; simp)
  unfold symCalc
  rw [← hpre, ← hc, this]
  simp only
  rw [if_pos (by simpa using hr), foldl_update]
  rfl

theorem eblas_eq (nE n : Nat) (cs : List (List Nat)) (hn : ∀ d ∈ cs, d.length = n) (hr : ∀ d ∈ cs, ∀ p ∈ d, p < nE) (x : Fld) :
    eblasSymmetrize nE cs.length n cs.flatten x = .ok (cs.foldl classAvg x) := by
  have key : ∀ (post pre : List (List Nat)) (x : Fld), cs = pre ++ post →
      (List.range' pre.length post.length).foldlM (fun x i => symCalc nE n cs.flatten i x) x = .ok (post.foldl classAvg x) := by
    intro post
    induction post with
    | nil => intro pre x _; simp [Res.pure_eq]
    | cons c t ih =>
      intro pre x h
      rw [List.length_cons, List.range'_succ, List.foldlM_cons,
        symCalc_eq nE n cs pre c t h hn (fun p hp => hr c (by simp [h]) p hp), Res.bind_ok, List.foldl_cons]
      have := ih (pre ++ [c]) (classAvg x c) (by simp [h])
      simpa using this
  have := key cs [] x rfl
  unfold eblasSymmetrize
  rw [List.range_eq_range']
  simpa using this

theorem flatten_div (n : Nat) (hn0 : 0 < n) (cs : List (List Nat)) (hn : ∀ d ∈ cs, d.length = n) : cs.flatten.length / n = cs.length := by
  have : cs.flatten.length = cs.length * n := by
    induction cs with
    | nil => simp
    | cons a t ih =>
      rw [List.flatten_cons, List.length_append, ih fun d hd => hn d (by simp [hd]), hn a (by simp), List.length_cons]
      ring
  rw [this, Nat.mul_div_cancel _ hn0]

theorem fold_avg (cs : List (List Nat)) (hd : cs.Pairwise fun c d => ∀ p ∈ c, p ∉ d) (x : Fld) (p : Nat) :
    (∀ c ∈ cs, p ∈ c → cs.foldl classAvg x p = (c.map x).sum * (1 / (c.length : ℂ))) ∧
    ((∀ c ∈ cs, p ∉ c) → cs.foldl classAvg x p = x p) := by
  induction cs generalizing x with
  | nil => simp
  | cons c0 t ih =>
    rw [List.pairwise_cons] at hd
    obtain ⟨h1, h2⟩ := ih hd.2 (classAvg x c0)
    rw [List.foldl_cons]
    constructor
    · intro c hc hp
      rcases List.mem_cons.1 hc with rfl | hc
      · rw [h2 fun d hdm hpd => hd.1 d hdm p hp hpd]
        simp [classAvg, hp]
      · rw [h1 c hc hp]
        congr 2
        apply List.map_congr_left
        intro q hq
        have : q ∉ c0 := fun hq0 => hd.1 c hc q hq0 hq
        simp [classAvg, this]
    · intro h
      rw [h2 fun c hc => h c (by simp [hc])]
      simp [classAvg, h c0 (by simp)]

theorem sym_spec (nE : Nat) (cs : List (List Nat)) (hd : cs.Pairwise fun c d => ∀ p ∈ c, p ∉ d) (hr : ∀ d ∈ cs, ∀ p ∈ d, p < nE)
    (hne : ∀ d ∈ cs, d ≠ []) (si : List (Nat × List Nat)) (hsi : symmIndex cs = .ok si) (x : Fld) :
    ∃ y, boundarySymmetrize nE si x = .ok y ∧ ∀ p, (∀ c ∈ cs, p ∈ c → y p = (c.map x).sum * (1 / (c.length : ℂ))) ∧
      ((∀ c ∈ cs, p ∉ c) → y p = x p) := by
  unfold symmIndex at hsi
  split at hsi
  · exact absurd hsi (by simp)
  set M := (cs.map List.length).foldr max 0 with hM
  have hMle : ∀ c ∈ cs, c.length ≤ M := by
    rw [hM]
    clear * -
    induction cs with
    | nil => simp
    | cons a t ih =>
      intro c hc
      rw [List.map_cons, List.foldr_cons]
      rcases List.mem_cons.1 hc with rfl | hc
      · exact le_max_left _ _
      · exact (ih c hc).trans (le_max_right _ _)
  injection hsi with hsi
  -- the loop over n as a fold of averages
  have hloop : ∀ (ns : List Nat) (x : Fld), (∀ n ∈ ns, 2 ≤ n) →
      (ns.map fun n => ((if n ≤ 1 then ((0, []) : Nat × List Nat) else
        (((cs.filter fun c => c.length = n).flatten).length / n, (cs.filter fun c => c.length = n).flatten)), n)).foldlM
        (fun x e => if e.1.1 ≠ 0 then eblasSymmetrize nE e.1.1 e.2 e.1.2 x else pure x) x =
      (.ok ((ns.flatMap fun n => cs.filter fun c => c.length = n).foldl classAvg x) : Res Fld) := by
    intro ns
    induction ns with
    | nil => intro x _; simp [Res.pure_eq]
    | cons n t ih =>
      intro x h
      have hn : 2 ≤ n := h n (by simp)
      have hlen : ∀ d ∈ cs.filter (fun c => decide (c.length = n)), d.length = n := by
        intro d hd; simpa using (List.mem_filter.1 hd).2
      rw [List.map_cons, List.foldlM_cons]
      simp only [if_neg (show ¬ n ≤ 1 by omega)]
      rw [flatten_div n (by omega) _ hlen, List.flatMap_cons, List.foldl_append]
      have step : (if (cs.filter fun c => decide (c.length = n)).length ≠ 0 then
          eblasSymmetrize nE (cs.filter fun c => decide (c.length = n)).length n (cs.filter fun c => decide (c.length = n)).flatten x
          else pure x) = (.ok ((cs.filter fun c => decide (c.length = n)).foldl classAvg x) : Res Fld) := by
        by_cases h0 : (cs.filter fun c => decide (c.length = n)).length = 0
        · rw [if_neg (by simpa using h0), List.length_eq_zero_iff.1 h0]; rfl
        · rw [if_pos h0, eblas_eq nE n _ hlen fun d hd => hr d (List.mem_filter.1 hd).1]
      rw [step, Res.bind_ok]
      exact ih _ fun m hm => h m (by simp [hm])
  have hsi2 : si.zipIdx.drop 2 = (List.range' 2 (M - 1)).map fun n => ((if n ≤ 1 then ((0, []) : Nat × List Nat) else
        (((cs.filter fun c => c.length = n).flatten).length / n, (cs.filter fun c => c.length = n).flatten)), n) := by
    rw [← hsi]
    apply List.ext_getElem
    · simp
    · intro i h1 h2
      simp [Nat.add_comm]
  refine ⟨_, by unfold boundarySymmetrize; rw [hsi2]; exact hloop _ x (fun n hn => by obtain ⟨i, _, rfl⟩ := List.mem_range'.1 hn; omega), fun p => ?_⟩
  have hne2 : ∀ c ∈ cs, ∀ d ∈ cs, c ≠ d → ∀ p ∈ c, p ∉ d := by
    intro c hc d hdm hcd
    have : Std.Symm (fun c d : List Nat => ∀ p ∈ c, p ∉ d) := ⟨fun a b h p hp hq => h p hq hp⟩
    exact hd.forall hc hdm hcd
  have hpw : ((List.range' 2 (M - 1)).flatMap fun n => cs.filter fun c => c.length = n).Pairwise fun c d => ∀ p ∈ c, p ∉ d := by
    rw [List.pairwise_flatMap]
    refine ⟨fun n _ => hd.sublist List.filter_sublist, ?_⟩
    refine List.Pairwise.imp ?_ (List.nodup_range' (s := 2) (n := M - 1))
    intro a b hab c hc d hdm
    simp only [List.mem_filter, decide_eq_true_eq] at hc hdm
    exact hne2 c hc.1 d hdm.1 (fun e => hab (by rw [← hc.2, ← hdm.2, e]))
  obtain ⟨h1, h2⟩ := fold_avg _ hpw x p
  constructor
  · intro c hc hp
    by_cases h1c : c.length = 1
    · rw [h2]
      · obtain ⟨q, rfl⟩ := List.length_eq_one_iff.1 h1c
        have : p = q := by simpa using hp
        subst this
        simp
      · intro d hdm hpd
        simp only [List.mem_flatMap, List.mem_range', List.mem_filter, decide_eq_true_eq] at hdm
        obtain ⟨n, ⟨i, _, hi⟩, hdc, hl⟩ := hdm
        have : c ≠ d := fun e => by rw [e] at h1c; omega
        exact hne2 c hc d hdc this p hp hpd
    · refine h1 c ?_ hp
      have : 0 < c.length := List.length_pos_iff.2 (hne c hc)
      have := hMle c hc
      simp only [List.mem_flatMap, List.mem_range', List.mem_filter, decide_eq_true_eq]
      exact ⟨c.length, ⟨c.length - 2, by omega, by omega⟩, hc, rfl⟩
  · intro h
    apply h2
    intro c hc
    simp only [List.mem_flatMap, List.mem_filter] at hc
    obtain ⟨_, _, hc, _⟩ := hc
    exact h c hc

end
end Jdftx.Embed
