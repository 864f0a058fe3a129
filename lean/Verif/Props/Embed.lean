import Verif.Lemmas.EmbedMaps
import Mathlib.Tactic.LinearCombination

/-!
# C69: the truncated Coulomb interaction on the embedding mesh
-/
namespace Jdftx.Embed
open Jdftx.Box Jdftx.M3 Jdftx.WS
noncomputable section
open Classical

/-! ### From the constructor to its properties -/

theorem mapM_rLoop {β : Type} (S : Size) (hS : S.Pos) (f : Nat × IV → Res β) (l : List β) (h : (rLoop S 0 (nr S)).mapM f = .ok l) :
    l.length = nr S ∧ ∀ i (hi : i < l.length), f (i, rStart S i) = .ok l[i] := by
  have hl : rLoop S 0 (nr S) = (List.range (nr S)).map fun j => (j, rStart S j) := by
    unfold rLoop
    rw [rLoopFrom_eq S hS (nr S) (nr S) 0 (by omega), List.range_eq_range']; simp
  rw [hl] at h
  have key : ∀ (js : List Nat) (l : List β), (js.map fun j => (j, rStart S j)).mapM f = .ok l →
      l.length = js.length ∧ ∀ i (hi : i < l.length) (hj : i < js.length), f (js[i], rStart S js[i]) = .ok l[i] := by
    intro js
    induction js with
    | nil =>
      intro l h
      simp only [List.map_nil, List.mapM_nil, Res.pure_eq, Except.ok.injEq] at h
      subst h; simp
    | cons a t ih =>
      intro l h
      rw [List.map_cons, List.mapM_cons] at h
      cases ha : f (a, rStart S a) with
      | error e => rw [ha] at h; simp [Res.bind_error] at h
      | ok b =>
        rw [ha, Res.bind_ok] at h
        cases ht : (t.map fun j => (j, rStart S j)).mapM f with
        | error e => rw [ht] at h; simp [Res.bind_error] at h
        | ok l' =>
          rw [ht, Res.bind_ok, Res.pure_eq, Except.ok.injEq] at h
          subst h
          obtain ⟨h1, h2⟩ := ih l' ht
          refine ⟨by simp [h1], fun i hi hj => ?_⟩
          cases i with
          | zero => exact ha
          | succ i => exact h2 i (by simpa using hi) (by simpa using hj)
  obtain ⟨h1, h2⟩ := key _ _ h
  rw [List.length_range] at h1
  refine ⟨h1, fun i hi => ?_⟩
  have := h2 i hi (by rw [List.length_range, ← h1]; exact hi)
  simpa using this

theorem sEmbed_pos (tr : Fin 3 → Bool) (S : Size) (hS : S.Pos) : (sEmbed tr S).Pos := by
  obtain ⟨a, b, c⟩ := hS
  unfold sEmbed
  refine ⟨?_, ?_, ?_⟩
  · simp only; split <;> omega
  · simp only; split <;> omega
  · simp only; split <;> omega

theorem sEmbed_dvd (tr : Fin 3 → Bool) (S : Size) (k : Fin 3) : samples S k ∣ samples (sEmbed tr S) k := by
  match k with
  | 0 => exact ⟨if tr 0 then 2 else 1, by simp [samples, sEmbed, vec, mul_comm]⟩
  | 1 => exact ⟨if tr 1 then 2 else 1, by simp [samples, sEmbed, vec, mul_comm]⟩
  | 2 => exact ⟨if tr 2 then 2 else 1, by simp [samples, sEmbed, vec, mul_comm]⟩

theorem size_pos (S : Size) (hS : S.Pos) (k : Fin 3) : 0 < sizeV S k := by
  match k with
  | 0 => have := hS.1; simpa [sizeV, vec] using this
  | 1 => have := hS.2.1; simpa [sizeV, vec] using this
  | 2 => have := hS.2.2; simpa [sizeV, vec] using this

/-- A reduced mesh vector is inside all faces. -/
theorem reduce_inside (R : Mat ℝ) (hR : det R ≠ 0) (tol : ℝ) (htol : 0 < tol) (faces : List Face) (hf : ∀ f ∈ faces, Made R f)
    (S : Size) (hS : S.Pos) (fuel : Nat) (iv v : V3 Int) (h : reduceMesh tol (sizeV S) (invS S) faces fuel iv = .ok v) :
    ∀ f ∈ faces, Inside R tol (fun k => (v k : ℝ) / (samples S k : ℝ)) f.img := by
  obtain ⟨N, v', h1, _, h3⟩ := C28_mesh R hR tol htol faces hf (sizeV S) (size_pos S hS) iv
  have mono : ∀ n k iv v, reduceMesh tol (sizeV S) (invS S) faces n iv = .ok v →
      reduceMesh tol (sizeV S) (invS S) faces (n + k) iv = .ok v := by
    intro n
    induction n with
    | zero => intro k iv v h; simp [reduceMesh] at h
    | succ n ih =>
      intro k iv v h
      rw [show n + 1 + k = (n + k) + 1 by omega]
      unfold reduceMesh at h ⊢
      simp only at h ⊢
      split at h
      · next hc => rw [if_pos hc]; exact ih _ _ _ h
      · next hc => rw [if_neg hc]; exact h
  have a := (h1 (N + fuel) (by omega)).1
  have b := mono fuel N iv v h
  rw [Nat.add_comm] at b
  have : v = v' := by
    have e : reduceMesh tol (sizeV S) (invS S) faces (N + fuel) iv = .ok v' := a
    rw [b] at e
    exact Except.ok.inj e
  rw [this]
  exact h3

theorem onBoundary_inside (big tol : ℝ) (R : Mat ℝ) (hR : det R ≠ 0) (faces : List Face) (hf : ∀ f ∈ faces, Made R f) (x : V3 ℝ)
    (h : onBoundary big tol R faces x = true) : ∀ f ∈ faces, Inside R tol x f.img := by
  have key : ∀ (l : List Face) (m r : ℝ), onBoundaryLoop tol R x l m = some r → ∀ f ∈ l, -tol ≤ dDiff f x := by
    intro l
    induction l with
    | nil => intro m r _ f hf; simp at hf
    | cons a t ih =>
      intro m r h f hf
      unfold onBoundaryLoop at h
      split at h
      · simp at h
      · next hc =>
        rcases List.mem_cons.1 hf with rfl | hf
        · exact not_lt.1 hc
        · exact ih _ _ h f hf
  unfold onBoundary at h
  cases hl : onBoundaryLoop tol R x faces big with
  | none => rw [hl] at h; simp at h
  | some r =>
    intro f hfm
    have h1 := key faces big r hl f hfm
    rw [inside_iff (made_good R hR f (hf f hfm))]
    unfold dDiff at h1
    unfold dPos
    have := abs_le.1 (show |dot f.eqn x| ≤ 1 + 2 * tol by linarith)
    constructor <;> linarith [this.1, this.2]

/-- Which points of the embedding mesh take part in the symmetrisation, and in which class. -/
def bkeyOf (big tol : ℝ) (R : Mat ℝ) (faces : List Face) (fuel : Nat) (S SE : Size) (p : Nat) : Option Int :=
  match boundaryPair big tol R faces fuel S SE (p, rStart SE p) with
  | .ok (some kp) => some kp.1
  | _ => none

theorem construct_valid (big tol : ℝ) (htol : 0 < tol) (R : Mat ℝ) (hR : det R ≠ 0) (faces : List Face) (hf : ∀ f ∈ faces, Made R f)
    (fuel : Nat) (tr : Fin 3 → Bool) (S : Size) (hS : S.Pos) (arrive : List (Int × Nat) → List (Int × Nat)) (harr : ∀ l, (arrive l).Perm l)
    (m : Maps) (h : construct big tol R faces fuel tr S arrive = .ok m) :
    ∃ (bkey : Nat → Option Int) (e : Nat → Nat), Valid m bkey e ∧ m.nO = nr S ∧ m.nE = nr (sEmbed tr S) ∧
      (∀ i < nr S, ImageOf S (sEmbed tr S) (e i) i ∧ InCell R tol (faces.map Face.img) S (sEmbed tr S) (e i)) ∧
      (∀ p < nr (sEmbed tr S), ∀ k, bkey p = some k → InCell R tol (faces.map Face.img) S (sEmbed tr S) p ∧
        ∃ i < nr S, k = (i : Int) ∧ ImageOf S (sEmbed tr S) p i) := by
  have hE := sEmbed_pos tr S hS
  unfold construct at h
  simp only at h
  cases hi : embedIndex tol faces fuel S (sEmbed tr S) with
  | error _ => rw [hi] at h; simp [Res.bind_error] at h
  | ok idx =>
  rw [hi, Res.bind_ok] at h
  cases hb : boundaryPairs big tol R faces fuel S (sEmbed tr S) with
  | error _ => rw [hb] at h; simp [Res.bind_error] at h
  | ok pairs =>
  rw [hb, Res.bind_ok] at h
  cases hs : symmIndex (runs (multimap (arrive pairs))) with
  | error _ => rw [hs] at h; simp [Res.bind_error] at h
  | ok si =>
  rw [hs, Res.bind_ok, Res.pure_eq, Except.ok.injEq] at h
  subst h
  -- the embedding indices
  obtain ⟨l1, l2⟩ := mapM_rLoop S hS _ idx hi
  have hidx : ∀ i < nr S, ∃ p, p < nr (sEmbed tr S) ∧ idx.getD i 0 = (p : Int) ∧ ImageOf S (sEmbed tr S) p i ∧
      InCell R tol (faces.map Face.img) S (sEmbed tr S) p := by
    intro i hin
    have hil : i < idx.length := by rw [l1]; exact hin
    have g := l2 i hil
    unfold embedPoint at g
    simp only at g
    cases hv : reduceMesh tol (sizeV S) (invS S) faces fuel (toV (rStart S i)) with
    | error _ => rw [hv] at g; simp [Res.bind_error] at g
    | ok v =>
      rw [hv, Res.bind_ok, Res.pure_eq, Except.ok.injEq] at g
      obtain ⟨p, p1, p2, p3⟩ := index_coord (sEmbed tr S) hE v
      obtain ⟨n, hn⟩ := reduceMesh_equiv _ _ _ _ _ _ _ hv
      refine ⟨p, p1, ?_, ?_, v, p3, ?_⟩
      · rw [← p2, g]; simp [hil]
      · intro k
        have d1 := (sEmbed_dvd tr S k).trans (p3 k)
        have d2 : samples S k ∣ v k - coord S i k := ⟨n k, by rw [coord_rStart, hn k, samples_eq]; ring⟩
        have := dvd_sub d2 d1
        have e : v k - coord S i k - (v k - coord (sEmbed tr S) p k) = coord (sEmbed tr S) p k - coord S i k := by ring
        rwa [e] at this
      · intro a ha
        obtain ⟨f, hfm, rfl⟩ := List.mem_map.1 ha
        exact reduce_inside R hR tol htol faces hf S hS fuel _ v hv f hfm
  -- the boundary points
  have hbk : ∀ p < nr (sEmbed tr S), ∀ k, bkeyOf big tol R faces fuel S (sEmbed tr S) p = some k →
      InCell R tol (faces.map Face.img) S (sEmbed tr S) p ∧ ∃ i < nr S, k = (i : Int) ∧ ImageOf S (sEmbed tr S) p i := by
    intro p hp k hk
    unfold bkeyOf boundaryPair at hk
    simp only at hk
    cases hv : reduceMesh tol (sizeV (sEmbed tr S)) (invS (sEmbed tr S)) faces fuel (toV (rStart (sEmbed tr S) p)) with
    | error _ => rw [hv] at hk; simp [Res.bind_error] at hk
    | ok v =>
      rw [hv, Res.bind_ok] at hk
      by_cases ho : onBoundary big tol R faces (fun k => (v k : ℝ) * invS S k) = true
      · rw [if_pos ho, Res.pure_eq] at hk
        simp only [Option.some.injEq] at hk
        obtain ⟨n, hn⟩ := reduceMesh_equiv _ _ _ _ _ _ _ hv
        obtain ⟨i, i1, i2, i3⟩ := index_coord S hS v
        have hvp : ∀ k, samples (sEmbed tr S) k ∣ v k - coord (sEmbed tr S) p k := fun k =>
          ⟨n k, by rw [coord_rStart, hn k, samples_eq]; ring⟩
        refine ⟨⟨v, hvp, ?_⟩, i, i1, by rw [← i2, hk], fun k => ?_⟩
        · intro a ha
          obtain ⟨f, hfm, rfl⟩ := List.mem_map.1 ha
          have := onBoundary_inside big tol R hR faces hf _ ho f hfm
          have e : (fun k => (v k : ℝ) * invS S k) = fun k => (v k : ℝ) / (samples S k : ℝ) := by
            funext k; simp [invS, samples_eq, div_eq_mul_inv]
          rwa [e] at this
        · have d1 := (sEmbed_dvd tr S k).trans (hvp k)
          have := dvd_sub (i3 k) d1
          have e : v k - coord S i k - (v k - coord (sEmbed tr S) p k) = coord (sEmbed tr S) p k - coord S i k := by ring
          rwa [e] at this
      · rw [if_neg ho, Res.pure_eq] at hk
        simp at hk
  have hpairs : pairs = pairsOf (nr (sEmbed tr S)) (bkeyOf big tol R faces fuel S (sEmbed tr S)) := by
    unfold boundaryPairs at hb
    cases hl : (rLoop (sEmbed tr S) 0 (nr (sEmbed tr S))).mapM (boundaryPair big tol R faces fuel S (sEmbed tr S)) with
    | error _ => rw [hl] at hb; simp [Res.bind_error] at hb
    | ok l =>
      rw [hl, Res.bind_ok, Res.pure_eq, Except.ok.injEq] at hb
      obtain ⟨q1, q2⟩ := mapM_rLoop (sEmbed tr S) hE _ l hl
      have hlq : l = (List.range (nr (sEmbed tr S))).map fun p => (bkeyOf big tol R faces fuel S (sEmbed tr S) p).map fun k => (k, p) := by
        apply List.ext_getElem
        · simp [q1]
        · intro p h1 h2
          have g := q2 p h1
          simp only [List.getElem_map, List.getElem_range]
          unfold bkeyOf
          rw [g]
          cases hlp : l[p] with
          | none => simp
          | some kp =>
            simp only [Option.map_some]
            have : kp.2 = p := by
              rw [hlp] at g
              unfold boundaryPair at g
              simp only at g
              cases hv : reduceMesh tol (sizeV (sEmbed tr S)) (invS (sEmbed tr S)) faces fuel (toV (rStart (sEmbed tr S) p)) with
              | error _ => rw [hv] at g; simp [Res.bind_error] at g
              | ok v =>
                rw [hv, Res.bind_ok] at g
                split at g
                · rw [Res.pure_eq, Except.ok.injEq, Option.some.injEq] at g
                  rw [← g]
                · simp [Res.pure_eq] at g
            rw [← this]
      rw [← hb, hlq, List.filterMap_map]
      rfl
  choose! e he1 he2 he3 he4 using hidx
  refine ⟨bkeyOf big tol R faces fuel S (sEmbed tr S), e, ⟨l1, ?_, ?_, ?_⟩, rfl, rfl, fun i hin => ⟨he3 i hin, he4 i hin⟩, hbk⟩
  · intro p hp
    obtain ⟨i, hil, rfl⟩ := List.mem_iff_getElem.1 hp
    have hin : i < nr S := by rw [← l1]; exact hil
    have := he2 i hin
    have hlt := he1 i hin
    have e0 : idx.getD i 0 = idx[i] := by simp [hil]
    rw [e0] at this
    rw [this]
    refine ⟨by omega, ?_⟩
    show (e i : Int) < ((nr (sEmbed tr S) : Nat) : Int)
    exact_mod_cast hlt
  · intro i hin
    rw [he2 i hin]; simp
  · intro x
    exact boundary_W _ _ _ (hpairs ▸ harr pairs) si hs x

/-! ### The properties -/

/-- Setting up: the preparation always ends, and succeeds unless no point of the larger mesh lies on the boundary of the cell. -/
theorem C69_construct_partial (big tol : ℝ) (htol : 0 < tol) (R : Mat ℝ) (hR : det R ≠ 0) (faces : List Face) (hf : ∀ f ∈ faces, Made R f)
    (tr : Fin 3 → Bool) (S : Size) (hS : S.Pos) (arrive : List (Int × Nat) → List (Int × Nat)) (harr : ∀ l, (arrive l).Perm l) :
    ∃ N, ∀ fuel, N ≤ fuel → (∃ m, construct big tol R faces fuel tr S arrive = .ok m) ∨
      (construct big tol R faces fuel tr S arrive = .error .ub ∧ boundaryPairs big tol R faces fuel S (sEmbed tr S) = .ok []) := by
  have hE := sEmbed_pos tr S hS
  have lp : ∀ S : Size, S.Pos → rLoop S 0 (nr S) = (List.range (nr S)).map fun j => (j, rStart S j) := by
    intro S hS
    unfold rLoop
    rw [rLoopFrom_eq S hS (nr S) (nr S) 0 (by omega), List.range_eq_range']; simp
  have all : ∀ {β : Type} (f : Nat → Nat × IV → Res β) (l : List (Nat × IV)), (∀ p ∈ l, ∃ N, ∀ fuel, N ≤ fuel → ∃ b, f fuel p = .ok b) →
      ∃ N, ∀ fuel, N ≤ fuel → ∃ bs, l.mapM (f fuel) = .ok bs := by
    intro β f l
    induction l with
    | nil => intro _; exact ⟨0, fun fuel _ => ⟨[], rfl⟩⟩
    | cons a t ih =>
      intro h
      obtain ⟨N1, h1⟩ := h a (by simp)
      obtain ⟨N2, h2⟩ := ih fun p hp => h p (by simp [hp])
      refine ⟨max N1 N2, fun fuel hfu => ?_⟩
      obtain ⟨b, hb⟩ := h1 fuel (le_trans (le_max_left _ _) hfu)
      obtain ⟨bs, hbs⟩ := h2 fuel (le_trans (le_max_right _ _) hfu)
      exact ⟨b :: bs, by rw [List.mapM_cons, hb, Res.bind_ok, hbs, Res.bind_ok]; rfl⟩
  have red : ∀ S : Size, S.Pos → ∀ iv, ∃ N, ∀ fuel, N ≤ fuel → ∃ v, reduceMesh tol (sizeV S) (invS S) faces fuel iv = .ok v := by
    intro S hS iv
    obtain ⟨N, v, h1, _⟩ := C28_mesh R hR tol htol faces hf (sizeV S) (size_pos S hS) iv
    exact ⟨N, fun fuel hfu => ⟨v, (h1 fuel hfu).1⟩⟩
  obtain ⟨N1, h1⟩ := all (fun fuel p => embedPoint tol faces fuel S (sEmbed tr S) p.2) (rLoop S 0 (nr S)) fun p _ => by
    obtain ⟨N, h⟩ := red S hS (toV p.2)
    refine ⟨N, fun fuel hfu => ?_⟩
    obtain ⟨v, hv⟩ := h fuel hfu
    unfold embedPoint
    rw [hv, Res.bind_ok]
    exact ⟨_, rfl⟩
  obtain ⟨N2, h2⟩ := all (fun fuel p => boundaryPair big tol R faces fuel S (sEmbed tr S) p) (rLoop (sEmbed tr S) 0 (nr (sEmbed tr S))) fun p _ => by
    obtain ⟨N, h⟩ := red (sEmbed tr S) hE (toV p.2)
    refine ⟨N, fun fuel hfu => ?_⟩
    obtain ⟨v, hv⟩ := h fuel hfu
    unfold boundaryPair
    rw [hv, Res.bind_ok]
    split <;> exact ⟨_, rfl⟩
  refine ⟨max N1 N2, fun fuel hfu => ?_⟩
  obtain ⟨idx, hi⟩ := h1 fuel (le_trans (le_max_left _ _) hfu)
  obtain ⟨l, hl⟩ := h2 fuel (le_trans (le_max_right _ _) hfu)
  have hi' : embedIndex tol faces fuel S (sEmbed tr S) = .ok idx := hi
  have hb : boundaryPairs big tol R faces fuel S (sEmbed tr S) = .ok (l.filterMap id) := by
    unfold boundaryPairs
    rw [show (rLoop (sEmbed tr S) 0 (nr (sEmbed tr S))).mapM (boundaryPair big tol R faces fuel S (sEmbed tr S)) = .ok l from hl, Res.bind_ok]
    rfl
  unfold construct
  simp only [hi', hb, Res.bind_ok]
  by_cases hn : runs (multimap (arrive (l.filterMap id))) = []
  · right
    refine ⟨by unfold symmIndex; rw [if_pos hn]; rfl, ?_⟩
    have : multimap (arrive (l.filterMap id)) = [] := by
      cases hm : multimap (arrive (l.filterMap id)) with
      | nil => rfl
      | cons a t => rw [hm, runs] at hn; simp at hn
    have hp := (multimap_perm (arrive (l.filterMap id))).trans (harr _)
    rw [this] at hp
    rw [hp.symm.eq_nil]
  · left
    refine ⟨_, by unfold symmIndex; rw [if_neg hn, Res.bind_ok]; rfl⟩

/-- The density put on the larger mesh: what the periodic images of a point receive adds up to the value at the point, only points in
the Wigner-Seitz cell of the original lattice receive anything, and no array is used out of bounds. -/
theorem C69_expand (big tol : ℝ) (htol : 0 < tol) (R : Mat ℝ) (hR : det R ≠ 0) (faces : List Face) (hf : ∀ f ∈ faces, Made R f)
    (fuel : Nat) (tr : Fin 3 → Bool) (S : Size) (hS : S.Pos) (arrive : List (Int × Nat) → List (Int × Nat)) (harr : ∀ l, (arrive l).Perm l)
    (m : Maps) (h : construct big tol R faces fuel tr S arrive = .ok m) (x : Nat → ℂ) :
    ∃ y, expandR m x = .ok y ∧
      (∀ i < nr S, ∑ p ∈ (Finset.range (nr (sEmbed tr S))).filter (fun p => ImageOf S (sEmbed tr S) p i), y p = x i) ∧
      ∀ p < nr (sEmbed tr S), y p ≠ 0 → InCell R tol (faces.map Face.img) S (sEmbed tr S) p := by
  obtain ⟨bkey, e, hV, hO, hnE, he, hb⟩ := construct_valid big tol htol R hR faces hf fuel tr S hS arrive harr m h
  obtain ⟨y, h1, h2⟩ := hV.expand x
  rw [hO, hnE] at h2
  -- weights connect images of the same point only
  have hW : ∀ p < nr (sEmbed tr S), ∀ q < nr (sEmbed tr S), W (nr (sEmbed tr S)) bkey p q ≠ 0 →
      p = q ∨ (∃ k, bkey p = some k ∧ bkey q = some k) := by
    intro p hp q hq hw
    unfold W at hw
    cases hbp : bkey p with
    | none => rw [hbp] at hw; left; by_contra hpq; simp [hpq] at hw
    | some k => rw [hbp] at hw; right; refine ⟨k, rfl, ?_⟩; by_contra hq; simp [hq] at hw
  have img : ∀ p < nr (sEmbed tr S), ∀ j < nr S, W (nr (sEmbed tr S)) bkey p (e j) ≠ 0 → ImageOf S (sEmbed tr S) p j := by
    intro p hp j hj hw
    have hej : e j < nr (sEmbed tr S) := by have := hV.e_lt j (by rw [hO]; exact hj); rwa [hnE] at this
    rcases hW p hp (e j) hej hw with rfl | ⟨k, k1, k2⟩
    · exact (he j hj).1
    · obtain ⟨_, i, hi, hki, hpi⟩ := hb p hp k k1
      obtain ⟨_, i', hi', hki', hpi'⟩ := hb (e j) hej k k2
      have : i = i' := by have := hki.symm.trans hki'; exact_mod_cast this
      subst this
      have : i = j := coord_inj S hS i j hi hj fun k => by
        have := dvd_sub ((he j hj).1 k) (hpi' k)
        have e' : coord (sEmbed tr S) (e j) k - coord S j k - (coord (sEmbed tr S) (e j) k - coord S i k) = coord S i k - coord S j k := by ring
        rwa [e'] at this
      rw [← this]; exact hpi
  refine ⟨y, h1, fun i hi => ?_, fun p hp hy => ?_⟩
  · have e1 : ∀ p ∈ (Finset.range (nr (sEmbed tr S))).filter (fun p => ImageOf S (sEmbed tr S) p i), y p =
        W (nr (sEmbed tr S)) bkey p (e i) * x i := by
      intro p hp
      obtain ⟨hp1, hp2⟩ := Finset.mem_filter.1 hp
      rw [Finset.mem_range] at hp1
      rw [h2 p hp1]
      rw [Finset.sum_eq_single i]
      · intro j hj hji
        by_cases hw : W (nr (sEmbed tr S)) bkey p (e j) = 0
        · rw [hw, zero_mul]
        · exfalso
          have hpj := img p hp1 j (Finset.mem_range.1 hj) hw
          apply hji
          exact coord_inj S hS j i (Finset.mem_range.1 hj) hi fun k => by
            have := dvd_sub (hp2 k) (hpj k)
            have e' : coord (sEmbed tr S) p k - coord S i k - (coord (sEmbed tr S) p k - coord S j k) = coord S j k - coord S i k := by ring
            rwa [e'] at this
      · intro hni; exact absurd (Finset.mem_range.2 hi) hni
    rw [Finset.sum_congr rfl e1, ← Finset.sum_mul]
    have hei : e i < nr (sEmbed tr S) := by have := hV.e_lt i (by rw [hO]; exact hi); rwa [hnE] at this
    have e2 : ∑ p ∈ (Finset.range (nr (sEmbed tr S))).filter (fun p => ImageOf S (sEmbed tr S) p i), W (nr (sEmbed tr S)) bkey p (e i) =
        ∑ p ∈ Finset.range (nr (sEmbed tr S)), W (nr (sEmbed tr S)) bkey (e i) p := by
      rw [Finset.sum_filter]
      apply Finset.sum_congr rfl
      intro p hp
      split
      · exact W_symm _ _ _ _
      · next hni =>
        by_contra hw
        apply hni
        refine img p (Finset.mem_range.1 hp) i hi ?_
        rw [W_symm]
        exact fun e0 => hw e0.symm
    rw [e2, W_sum _ _ _ hei, one_mul]
  · rw [h2 p hp] at hy
    obtain ⟨j, hj, hne⟩ := Finset.exists_ne_zero_of_sum_ne_zero hy
    have hw : W (nr (sEmbed tr S)) bkey p (e j) ≠ 0 := fun e0 => hne (by rw [e0, zero_mul])
    have hj' := Finset.mem_range.1 hj
    have hej : e j < nr (sEmbed tr S) := by have := hV.e_lt j (by rw [hO]; exact hj'); rwa [hnE] at this
    rcases hW p hp (e j) hej hw with rfl | ⟨k, k1, _⟩
    · exact (he j hj').2
    · exact (hb p hp k k1).1

theorem Valid.adjoint {m : Maps} {bkey : Nat → Option Int} {e : Nat → Nat} (h : Valid m bkey e) (x y : Fld) :
    ∃ x' y', expandR m x = .ok x' ∧ shrinkR m y = .ok y' ∧ hdot m.nE y x' = hdot m.nO y' x := by
  obtain ⟨x', a1, a2⟩ := h.expand x
  obtain ⟨y', b1, b2⟩ := h.shrink y
  refine ⟨x', y', a1, b1, ?_⟩
  unfold hdot
  have e1 : ∑ p ∈ Finset.range m.nE, star (y p) * x' p =
      ∑ p ∈ Finset.range m.nE, ∑ i ∈ Finset.range m.nO, star (y p) * (W m.nE bkey p (e i) * x i) :=
    Finset.sum_congr rfl fun p hp => by rw [a2 p (Finset.mem_range.1 hp), Finset.mul_sum]
  have e2 : ∑ i ∈ Finset.range m.nO, star (y' i) * x i =
      ∑ i ∈ Finset.range m.nO, ∑ p ∈ Finset.range m.nE, star (W m.nE bkey (e i) p * y p) * x i :=
    Finset.sum_congr rfl fun i hi => by rw [b2 i (Finset.mem_range.1 hi), star_sum, Finset.sum_mul]
  rw [e1, e2, Finset.sum_comm]
  apply Finset.sum_congr rfl
  intro i _
  apply Finset.sum_congr rfl
  intro p _
  rw [star_mul', W_real, W_symm]
  ring

/-- Reading the potential back from the larger mesh is the adjoint of putting the density there. -/
theorem C69_adjoint (big tol : ℝ) (htol : 0 < tol) (R : Mat ℝ) (hR : det R ≠ 0) (faces : List Face) (hf : ∀ f ∈ faces, Made R f)
    (fuel : Nat) (tr : Fin 3 → Bool) (S : Size) (hS : S.Pos) (arrive : List (Int × Nat) → List (Int × Nat)) (harr : ∀ l, (arrive l).Perm l)
    (m : Maps) (h : construct big tol R faces fuel tr S arrive = .ok m) (x y : Nat → ℂ) :
    ∃ x' y', expandR m x = .ok x' ∧ shrinkR m y = .ok y' ∧ hdot (nr (sEmbed tr S)) y x' = hdot (nr S) y' x := by
  obtain ⟨bkey, e, hV, hO, hnE, _⟩ := construct_valid big tol htol R hR faces hf fuel tr S hS arrive harr m h
  have := hV.adjoint x y
  rwa [hO, hnE] at this

theorem hdot_I (n : Nat) (hn : 0 < n) (E : Nat → Nat → ℂ) (a b : Fld) : hdot n a (opI n E b) = n * hdot n (opJ n E a) b := by
  unfold hdot opI opJ
  simp only [Finset.mul_sum, star_mul', star_sum, Finset.sum_mul]
  rw [Finset.sum_comm]
  apply Finset.sum_congr rfl
  intro g _
  apply Finset.sum_congr rfl
  intro r _
  have h0 : (n : ℂ) ≠ 0 := by exact_mod_cast hn.ne'
  simp only [star_star, one_div, star_inv₀, star_natCast]
  field_simp

theorem hdot_J (n : Nat) (hn : 0 < n) (E : Nat → Nat → ℂ) (a b : Fld) : n * hdot n a (opJ n E b) = hdot n (opI n E a) b := by
  unfold hdot opI opJ
  simp only [Finset.mul_sum, star_mul', star_sum, Finset.sum_mul]
  rw [Finset.sum_comm]
  apply Finset.sum_congr rfl
  intro g _
  apply Finset.sum_congr rfl
  intro r _
  have h0 : (n : ℂ) ≠ 0 := by exact_mod_cast hn.ne'
  field_simp

theorem center_conj (ang : Nat → ℝ) (i : Nat) : star (centerFromO ang i) = centerToO ang i := by
  unfold centerFromO centerToO cis
  apply Complex.ext <;> simp

/-- What mode the adjoint has. -/
def Mode.flip : Mode → Mode
  | .none => .none
  | .left => .right
  | .right => .left

theorem Valid.core {m : Maps} {bkey : Nat → Option Int} {e : Nat → Nat} (h : Valid m bkey e) (hO : 0 < m.nO) (hE : 0 < m.nE)
    (E F : Nat → Nat → ℂ) (ang kernel : Nat → ℝ) :
    ∃ T : Fld → Fld, (∀ x, (do let y ← embedExpand m E F ang x; embedShrink m E F ang (fun p => (kernel p : ℂ) * y p)) = .ok (T x)) ∧
      ∀ x y, hdot m.nO x (T y) = hdot m.nO (T x) y := by
  have hx : ∀ x, ∃ y, expandR m x = .ok y := fun x => by obtain ⟨y, a, _⟩ := h.expand x; exact ⟨y, a⟩
  have hs : ∀ x, ∃ y, shrinkR m x = .ok y := fun x => by obtain ⟨y, a, _⟩ := h.shrink x; exact ⟨y, a⟩
  choose X hX using hx
  choose Y hY using hs
  have adj : ∀ x y, hdot m.nE y (X x) = hdot m.nO (Y y) x := by
    intro x y
    obtain ⟨x', y', a, b, c⟩ := h.adjoint x y
    rw [hX] at a; rw [hY] at b
    rw [Except.ok.inj a, Except.ok.inj b]; exact c
  let A : Fld → Fld := fun x => opJ m.nE E (X (opI m.nO F fun i => centerToO ang i * x i))
  let B : Fld → Fld := fun y i => centerFromO ang i * opJ m.nO F (Y (opI m.nE E y)) i
  let K : Fld → Fld := fun y p => (kernel p : ℂ) * y p
  have hc : ∀ (a b : Fld), hdot m.nO a (fun i => centerFromO ang i * b i) = hdot m.nO (fun i => centerToO ang i * a i) b := by
    intro a b
    unfold hdot
    apply Finset.sum_congr rfl
    intro i _
    show star (a i) * (centerFromO ang i * b i) = star (centerToO ang i * a i) * b i
    rw [← center_conj, star_mul', star_star]; ring
  have hk : ∀ a b : Fld, hdot m.nE a (K b) = hdot m.nE (K a) b := by
    intro a b
    unfold hdot
    apply Finset.sum_congr rfl
    intro i _
    simp only [K, star_mul', Complex.star_def, Complex.conj_ofReal]; ring
  have hconj : ∀ n a b, hdot n a b = star (hdot n b a) := by
    intro n a b
    unfold hdot
    rw [star_sum]
    apply Finset.sum_congr rfl
    intro i _
    rw [star_mul', star_star]; ring
  have hO' : (m.nO : ℂ) ≠ 0 := by exact_mod_cast hO.ne'
  have hE' : (m.nE : ℂ) ≠ 0 := by exact_mod_cast hE.ne'
  -- B is the adjoint of A up to the ratio of mesh sizes
  have hAB : ∀ a b, m.nO * hdot m.nO a (B b) = m.nE * hdot m.nE (A a) b := by
    intro a b
    show m.nO * hdot m.nO a (fun i => centerFromO ang i * opJ m.nO F (Y (opI m.nE E b)) i) = _
    rw [hc, hdot_J _ hO, hconj, ← adj, ← hconj, hdot_I _ hE]
  refine ⟨fun x => B (K (A x)), fun x => ?_, fun x y => ?_⟩
  · unfold embedExpand
    rw [hX, Res.bind_ok, Res.pure_eq, Res.bind_ok]
    unfold embedShrink
    rw [hY, Res.bind_ok, Res.pure_eq]
  · apply mul_left_cancel₀ hO'
    rw [hAB, hk]
    have h2 := hAB y (K (A x))
    have h3 := congrArg star h2
    rw [star_mul', star_mul', star_natCast, star_natCast, ← hconj, ← hconj] at h3
    exact h3.symm

/-- The embedded interaction is Hermitian, and treating the left argument as point charges is the adjoint of treating the right
argument as point charges: energies do not depend on which of two densities the operator is applied to. -/
theorem C69_hermitian (big tol : ℝ) (htol : 0 < tol) (R : Mat ℝ) (hR : det R ≠ 0) (faces : List Face) (hf : ∀ f ∈ faces, Made R f)
    (fuel : Nat) (tr : Fin 3 → Bool) (S : Size) (hS : S.Pos) (arrive : List (Int × Nat) → List (Int × Nat)) (harr : ∀ l, (arrive l).Perm l)
    (m : Maps) (h : construct big tol R faces fuel tr S arrive = .ok m) (E F : Nat → Nat → ℂ) (ang kernel ion gau : Nat → ℝ)
    (mode : Mode) (x y : Nat → ℂ) :
    ∃ Kx Ky, coulomb m E F ang kernel ion gau mode x = .ok Kx ∧ coulomb m E F ang kernel ion gau mode.flip y = .ok Ky ∧
      hdot (nr S) y Kx = hdot (nr S) Ky x := by
  obtain ⟨bkey, e, hV, hO, hnE, _⟩ := construct_valid big tol htol R hR faces hf fuel tr S hS arrive harr m h
  have pO : 0 < nr S := by unfold nr; exact Nat.mul_pos (Nat.mul_pos hS.1 hS.2.1) hS.2.2
  have pE : 0 < nr (sEmbed tr S) := by
    obtain ⟨a, b, c⟩ := sEmbed_pos tr S hS
    unfold nr; exact Nat.mul_pos (Nat.mul_pos a b) c
  obtain ⟨T, hT, hsym⟩ := hV.core (by rw [hO]; exact pO) (by rw [hnE]; exact pE) E F ang kernel
  rw [hO] at hsym
  have run : ∀ x, ∃ y, embedExpand m E F ang x = .ok y ∧ embedShrink m E F ang (fun p => (kernel p : ℂ) * y p) = .ok (T x) := by
    intro x
    have := hT x
    cases he : embedExpand m E F ang x with
    | error _ => rw [he] at this; simp [Res.bind_error] at this
    | ok y => rw [he, Res.bind_ok] at this; exact ⟨y, rfl, this⟩
  have runN : ∀ x, coulomb m E F ang kernel ion gau .none x = .ok fun i => T x i + 0 := by
    intro x
    obtain ⟨y, h1, h2⟩ := run x
    simp only [coulomb, h1, h2, Res.bind_ok, Res.pure_eq]
  have runL : ∀ x, coulomb m E F ang kernel ion gau .left x = .ok fun i => (gau i : ℂ) * T x i + (ion i : ℂ) * x i := by
    intro x
    obtain ⟨y, h1, h2⟩ := run x
    simp only [coulomb, h1, h2, Res.bind_ok, Res.pure_eq]
  have runR : ∀ x, coulomb m E F ang kernel ion gau .right x = .ok fun i => T (fun i => (gau i : ℂ) * x i) i + (ion i : ℂ) * x i := by
    intro x
    obtain ⟨y, h1, h2⟩ := run fun i => (gau i : ℂ) * x i
    simp only [coulomb, h1, h2, Res.bind_ok, Res.pure_eq]
  have hadd : ∀ a b c : Fld, hdot (nr S) a (fun i => b i + c i) = hdot (nr S) a b + hdot (nr S) a c := by
    intro a b c; unfold hdot; rw [← Finset.sum_add_distrib]; exact Finset.sum_congr rfl fun i _ => by ring
  have hadd' : ∀ a b c : Fld, hdot (nr S) (fun i => b i + c i) a = hdot (nr S) b a + hdot (nr S) c a := by
    intro a b c; unfold hdot; rw [← Finset.sum_add_distrib]; exact Finset.sum_congr rfl fun i _ => by rw [star_add]; ring
  have hr : ∀ (g : Nat → ℝ) (a b : Fld), hdot (nr S) a (fun i => (g i : ℂ) * b i) = hdot (nr S) (fun i => (g i : ℂ) * a i) b := by
    intro g a b; unfold hdot
    exact Finset.sum_congr rfl fun i _ => by simp only [star_mul', Complex.star_def, Complex.conj_ofReal]; ring
  cases mode with
  | none =>
    refine ⟨_, _, runN x, runN y, ?_⟩
    simp only [add_zero]
    exact hsym y x
  | left =>
    refine ⟨_, _, runL x, runR y, ?_⟩
    rw [hadd y (fun i => (gau i : ℂ) * T x i) fun i => (ion i : ℂ) * x i, hadd' x (T fun i => (gau i : ℂ) * y i) fun i => (ion i : ℂ) * y i,
      hr gau, hr ion, hsym]
  | right =>
    refine ⟨_, _, runR x, runL y, ?_⟩
    rw [hadd y (T fun i => (gau i : ℂ) * x i) fun i => (ion i : ℂ) * x i, hadd' x (fun i => (gau i : ℂ) * T y i) fun i => (ion i : ℂ) * y i,
      hsym, hr ion, hr gau]

/-! ### A cubic cell -/

/-- The unit cubic lattice. -/
def cubic : Mat ℝ := diag 1 1 1

/-- Its Wigner-Seitz cell has three pairs of faces. -/
def cubeFaces : List Face := [initFace cubic 0 true, initFace cubic 1 true, initFace cubic 2 true]

theorem cubic_det : det cubic ≠ 0 := by simp [cubic, det, box, dot, cross, row, vec, diag]

theorem cubeFaces_made : ∀ f ∈ cubeFaces, Made cubic f := by
  intro f hf
  simp only [cubeFaces, List.mem_cons, List.not_mem_nil, or_false] at hf
  rcases hf with rfl | rfl | rfl
  · exact .inl ⟨0, true, rfl⟩
  · exact .inl ⟨1, true, rfl⟩
  · exact .inl ⟨2, true, rfl⟩

theorem cube_eqn (d : Fin 3) (x : V3 ℝ) : dot (initFace cubic d true).eqn x = 2 * x d := by
  match d with
  | 0 => simp [initFace, WS.eqns, cubic, RTR, mulMM, transpose, diag, dot, row, column, vec]
  | 1 => simp [initFace, WS.eqns, cubic, RTR, mulMM, transpose, diag, dot, row, column, vec]
  | 2 => simp [initFace, WS.eqns, cubic, RTR, mulMM, transpose, diag, dot, row, column, vec]

theorem cube_metric (d : Fin 3) : metricLengthSq (RTR cubic) (castV (initFace cubic d true).img) = 1 := by
  match d with
  | 0 => simp [metricLengthSq, castV, initFace, cubic, RTR, mulMM, transpose, diag, dot, row, column, vec, mulMV]
  | 1 => simp [metricLengthSq, castV, initFace, cubic, RTR, mulMM, transpose, diag, dot, row, column, vec, mulMV]
  | 2 => simp [metricLengthSq, castV, initFace, cubic, RTR, mulMM, transpose, diag, dot, row, column, vec, mulMV]

theorem bp_none (big tol : ℝ) (R : Mat ℝ) (faces : List Face) (fuel : Nat) (S SE : Size) (p : Nat × IV) (v : V3 Int)
    (hv : reduceMesh tol (sizeV SE) (invS SE) faces fuel (toV p.2) = .ok v)
    (ho : onBoundary big tol R faces (fun k => (v k : ℝ) * invS S k) = false) :
    boundaryPair big tol R faces fuel S SE p = .ok none := by
  unfold boundaryPair
  rw [hv, Res.bind_ok, if_neg (by rw [ho]; simp)]
  rfl

theorem cube_not_boundary (big tol : ℝ) (htol : 0 < tol) (hbig : tol ≤ big) (n : Nat) (hn : n % 2 = 1) (hsmall : 4 * (n : ℝ) ^ 2 * tol ≤ 1)
    (v : V3 Int) : onBoundary big tol cubic cubeFaces (fun k => (v k : ℝ) * invS ⟨n, n, n⟩ k) = false := by
  have hn0 : (0 : ℝ) < n := by exact_mod_cast (by omega : 0 < n)
  have hinv : ∀ k, invS ⟨n, n, n⟩ k = 1 / (n : ℝ) := by
    intro k; match k with | 0 => simp [invS, sizeV, vec] | 1 => simp [invS, sizeV, vec] | 2 => simp [invS, sizeV, vec]
  -- each plane is missed by at least half a mesh spacing
  have hd : ∀ d : Fin 3, dDiff (initFace cubic d true) (fun k => (v k : ℝ) * invS ⟨n, n, n⟩ k) = ((n : ℝ) - 2 * |(v d : ℝ)|) / (2 * n) := by
    intro d
    unfold dDiff
    rw [cube_eqn, hinv, abs_mul, abs_mul, abs_of_pos (show (0 : ℝ) < 1 / n by positivity), abs_of_pos (show (0 : ℝ) < 2 by norm_num)]
    field_simp
    ring
  have hodd : ∀ d : Fin 3, 1 ≤ (n : ℝ) - 2 * |(v d : ℝ)| ∨ (n : ℝ) - 2 * |(v d : ℝ)| ≤ -1 := by
    intro d
    have : (1 : Int) ≤ n - 2 * |v d| ∨ (n : Int) - 2 * |v d| ≤ -1 := by omega
    rcases this with h | h
    · left
      have : ((1 : Int) : ℝ) ≤ ((n - 2 * |v d| : Int) : ℝ) := by exact_mod_cast h
      push_cast at this; exact this
    · right
      have : (((n : Int) - 2 * |v d| : Int) : ℝ) ≤ ((-1 : Int) : ℝ) := by exact_mod_cast h
      push_cast at this; exact this
  have htn : tol < 1 / (2 * n) := by
    rw [lt_div_iff₀ (by positivity)]
    have h1 : (1 : ℝ) ≤ n := by exact_mod_cast (by omega : 1 ≤ n)
    nlinarith
  have hcase : ∀ d : Fin 3, dDiff (initFace cubic d true) (fun k => (v k : ℝ) * invS ⟨n, n, n⟩ k) < -tol ∨
      tol ≤ dDiff (initFace cubic d true) (fun k => (v k : ℝ) * invS ⟨n, n, n⟩ k) * dDiff (initFace cubic d true) (fun k => (v k : ℝ) * invS ⟨n, n, n⟩ k) *
        metricLengthSq (RTR cubic) (castV (initFace cubic d true).img) := by
    intro d
    rw [hd, cube_metric, mul_one]
    rcases hodd d with h | h
    · right
      have h1 : 1 / (2 * (n : ℝ)) ≤ ((n : ℝ) - 2 * |(v d : ℝ)|) / (2 * n) := by
        apply div_le_div_of_nonneg_right h (by positivity)
      have h2 : tol ≤ 1 / (2 * (n : ℝ)) * (1 / (2 * (n : ℝ))) := by
        rw [div_mul_div_comm, le_div_iff₀ (by positivity)]
        nlinarith
      exact h2.trans (mul_self_le_mul_self (by positivity) h1)
    · left
      have : ((n : ℝ) - 2 * |(v d : ℝ)|) / (2 * n) ≤ -1 / (2 * n) := div_le_div_of_nonneg_right h (by positivity)
      have e : (-1 : ℝ) / (2 * n) = -(1 / (2 * n)) := by ring
      linarith
  have key : ∀ (l : List Face) (m : ℝ), (∀ f ∈ l, ∃ d, f = initFace cubic d true) → tol ≤ m →
      ∀ r, onBoundaryLoop tol cubic (fun k => (v k : ℝ) * invS ⟨n, n, n⟩ k) l m = some r → tol ≤ r := by
    intro l
    induction l with
    | nil => intro m _ hm r hr; simp only [onBoundaryLoop, Option.some.injEq] at hr; rw [← hr]; exact hm
    | cons f t ih =>
      intro m hl hm r hr
      obtain ⟨d, rfl⟩ := hl f (by simp)
      unfold onBoundaryLoop at hr
      split at hr
      · simp at hr
      · next hc =>
        refine ih _ (fun f hf => hl f (by simp [hf])) ?_ r hr
        split
        · exact (hcase d).resolve_left hc
        · exact hm
  unfold onBoundary
  cases hl : onBoundaryLoop tol cubic (fun k => (v k : ℝ) * invS ⟨n, n, n⟩ k) cubeFaces big with
  | none => rfl
  | some r =>
    have := key cubeFaces big (by
      intro f hf
      simp only [cubeFaces, List.mem_cons, List.not_mem_nil, or_false] at hf
      rcases hf with rfl | rfl | rfl
      exacts [⟨0, rfl⟩, ⟨1, rfl⟩, ⟨2, rfl⟩]) hbig r hl
    simpa using this

/-- With an odd number of samples along each direction of a cubic cell no mesh point is on the boundary, and setting up the
embedding takes the last element of an empty map. -/
theorem C69_odd_violation (big tol : ℝ) (htol : 0 < tol) (hbig : tol ≤ big) (n : Nat) (hn : n % 2 = 1) (hsmall : 4 * (n : ℝ) ^ 2 * tol ≤ 1)
    (arrive : List (Int × Nat) → List (Int × Nat)) (harr : ∀ l, (arrive l).Perm l) :
    ∃ N, ∀ fuel, N ≤ fuel → construct big tol cubic cubeFaces fuel (fun _ => true) ⟨n, n, n⟩ arrive = .error .ub := by
  have hS : Size.Pos ⟨n, n, n⟩ := ⟨by simp only; omega, by simp only; omega, by simp only; omega⟩
  obtain ⟨N, h⟩ := C69_construct_partial big tol htol cubic cubic_det cubeFaces cubeFaces_made (fun _ => true) ⟨n, n, n⟩ hS arrive harr
  refine ⟨N, fun fuel hf => ?_⟩
  rcases h fuel hf with ⟨m, hm⟩ | h
  · exfalso
    have hm' := hm
    unfold construct at hm
    simp only at hm
    cases hi : embedIndex tol cubeFaces fuel ⟨n, n, n⟩ (sEmbed (fun _ => true) ⟨n, n, n⟩) with
    | error _ => rw [hi] at hm; simp [Res.bind_error] at hm
    | ok idx =>
    rw [hi, Res.bind_ok] at hm
    cases hb : boundaryPairs big tol cubic cubeFaces fuel ⟨n, n, n⟩ (sEmbed (fun _ => true) ⟨n, n, n⟩) with
    | error _ => rw [hb] at hm; simp [Res.bind_error] at hm
    | ok pairs =>
    rw [hb, Res.bind_ok] at hm
    have : pairs = [] := by
      unfold boundaryPairs at hb
      cases hl : (rLoop (sEmbed (fun _ => true) ⟨n, n, n⟩) 0 (nr (sEmbed (fun _ => true) ⟨n, n, n⟩))).mapM
          (boundaryPair big tol cubic cubeFaces fuel ⟨n, n, n⟩ (sEmbed (fun _ => true) ⟨n, n, n⟩)) with
      | error _ => rw [hl] at hb; simp [Res.bind_error] at hb
      | ok l =>
        rw [hl, Res.bind_ok, Res.pure_eq, Except.ok.injEq] at hb
        obtain ⟨q1, q2⟩ := mapM_rLoop _ (sEmbed_pos _ _ hS) _ l hl
        rw [← hb, List.filterMap_eq_nil_iff]
        intro a ha
        obtain ⟨i, hil, rfl⟩ := List.mem_iff_getElem.1 ha
        have g := q2 i hil
        cases hv : reduceMesh tol (sizeV (sEmbed (fun _ => true) ⟨n, n, n⟩)) (invS (sEmbed (fun _ => true) ⟨n, n, n⟩)) cubeFaces fuel
            (toV (rStart (sEmbed (fun _ => true) ⟨n, n, n⟩) i)) with
        | error _ => unfold boundaryPair at g; rw [hv] at g; simp [Res.bind_error] at g
        | ok v =>
          rw [bp_none big tol cubic cubeFaces fuel _ _ _ v hv (cube_not_boundary big tol htol hbig n hn hsmall v), Except.ok.injEq] at g
          rw [← g]; rfl
    rw [this] at hm
    have : arrive [] = [] := (harr []).eq_nil
    rw [this] at hm
    simp [multimap, runs, symmIndex, Res.bind_error] at hm
  · exact h.1

/-- A mesh with two samples along the first direction has boundary points: the preparation succeeds, so the theorems apply. -/
theorem cube_ok (arrive : List (Int × Nat) → List (Int × Nat)) (harr : ∀ l, (arrive l).Perm l) :
    ∃ fuel m, construct 1000 (1/100) cubic cubeFaces fuel (fun _ => true) ⟨2, 1, 1⟩ arrive = .ok m := by
  have hS : Size.Pos ⟨2, 1, 1⟩ := ⟨by decide, by decide, by decide⟩
  obtain ⟨N, h⟩ := C69_construct_partial 1000 (1/100) (by norm_num) cubic cubic_det cubeFaces cubeFaces_made (fun _ => true) ⟨2, 1, 1⟩ hS arrive harr
  rcases h (N + 1) (by omega) with h | ⟨_, h⟩
  · exact ⟨N + 1, h⟩
  · exfalso
    unfold boundaryPairs at h
    cases hl : (rLoop (sEmbed (fun _ => true) ⟨2, 1, 1⟩) 0 (nr (sEmbed (fun _ => true) ⟨2, 1, 1⟩))).mapM
        (boundaryPair 1000 (1/100) cubic cubeFaces (N + 1) ⟨2, 1, 1⟩ (sEmbed (fun _ => true) ⟨2, 1, 1⟩)) with
    | error _ => rw [hl] at h; simp [Res.bind_error] at h
    | ok l =>
      rw [hl, Res.bind_ok, Res.pure_eq, Except.ok.injEq, List.filterMap_eq_nil_iff] at h
      obtain ⟨q1, q2⟩ := mapM_rLoop _ (sEmbed_pos _ _ hS) _ l hl
      have h4 : 4 < l.length := by rw [q1]; decide
      have g := q2 4 h4
      have hn : l[4] = none := h _ (List.getElem_mem h4)
      rw [hn] at g
      have hst : toV (rStart (sEmbed (fun _ => true) ⟨2, 1, 1⟩) 4) = vec 1 0 0 := by
        funext k; match k with | 0 => decide | 1 => decide | 2 => decide
      have hred : reduceMesh (1/100) (sizeV (sEmbed (fun _ => true) ⟨2, 1, 1⟩)) (invS (sEmbed (fun _ => true) ⟨2, 1, 1⟩)) cubeFaces (N + 1)
          (vec 1 0 0) = .ok (vec 1 0 0) := by
        have hm : ∀ d : Fin 3, stepMesh (1/100) (sizeV (sEmbed (fun _ => true) ⟨2, 1, 1⟩)) (invS (sEmbed (fun _ => true) ⟨2, 1, 1⟩))
            (initFace cubic d true) (vec 1 0 0) = (vec 1 0 0, false) := by
          intro d
          have hdp : dPosMesh (initFace cubic d true) (invS (sEmbed (fun _ => true) ⟨2, 1, 1⟩)) (vec 1 0 0) =
              0.5 * (1 + dot (initFace cubic d true).eqn (vec (1/4) 0 0)) := by
            simp [dPosMesh, dot, invS, sizeV, sEmbed, vec]
          unfold stepMesh
          simp only
          rw [hdp, cube_eqn, if_neg]
          match d with
          | 0 => simp only [vec]; norm_num
          | 1 => simp only [vec]; norm_num
          | 2 => simp only [vec]; norm_num
        unfold reduceMesh
        simp only [sweepMesh, cubeFaces, hm, Bool.or_self, Bool.false_eq_true, if_false]
      unfold boundaryPair at g
      simp only at g
      rw [hst, hred, Res.bind_ok] at g
      have hob : onBoundary 1000 (1/100) cubic cubeFaces (fun k => ((vec 1 0 0 : V3 Int) k : ℝ) * invS ⟨2, 1, 1⟩ k) = true := by
        have hx : (fun k => ((vec 1 0 0 : V3 Int) k : ℝ) * invS ⟨2, 1, 1⟩ k) = vec (1/2) 0 0 := by
          funext k; match k with | 0 => simp [vec, invS, sizeV] | 1 => simp [vec] | 2 => simp [vec]
        rw [hx]
        have hdd : ∀ d : Fin 3, dDiff (initFace cubic d true) (vec (1/2) 0 0) = 0.5 * (1 - |2 * (vec (1/2) 0 0 : V3 ℝ) d|) := by
          intro d; unfold dDiff; rw [cube_eqn]
        unfold onBoundary
        simp only [cubeFaces, onBoundaryLoop, hdd, cube_metric]
        simp [vec]
        norm_num
      rw [if_pos hob] at g
      simp [Res.pure_eq] at g

-- The theorems apply to this cell, where the point on the boundary is shared by two points of the larger mesh.
example (arrive : List (Int × Nat) → List (Int × Nat)) (harr : ∀ l, (arrive l).Perm l) : ∃ fuel m,
    construct 1000 (1/100) cubic cubeFaces fuel (fun _ => true) ⟨2, 1, 1⟩ arrive = .ok m ∧ (0 : ℝ) < 1/100 ∧ det cubic ≠ 0 ∧
      (∀ f ∈ cubeFaces, Made cubic f) ∧ Size.Pos ⟨2, 1, 1⟩ := by
  obtain ⟨fuel, m, h⟩ := cube_ok arrive harr
  exact ⟨fuel, m, h, by norm_num, cubic_det, cubeFaces_made, by decide, by decide, by decide⟩

-- An odd mesh to which the violation applies, with the tolerance of the code.
example : (15 : Nat) % 2 = 1 ∧ 4 * ((15 : Nat) : ℝ) ^ 2 * 1e-8 ≤ 1 := by norm_num

end
end Jdftx.Embed
