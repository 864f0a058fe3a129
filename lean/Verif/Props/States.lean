import Verif.Model.States
import Verif.Props.ReduceKmesh
import Verif.Props.Kpoints
import Verif.Props.Fillings

/-!
# C75: the list of electronic states
-/
namespace Jdftx.States
open Jdftx.M3 Jdftx.Kpts Jdftx.RK
noncomputable section
open Classical

/-- Weighted sum of a function of the wave vector over a k-point mesh. -/
def meshSum (f : V3 ℝ → ℝ) (mesh : List (QN ℝ)) : ℝ := (mesh.map fun q => q.weight * f q.k).sum

/-- Weighted sum of a function of the wave vector over the states of spin channel `s`. -/
def stateSum (f : V3 ℝ → ℝ) (s : Nat) (states : List State) : ℝ := ((states.filter fun q => decide (q.index = s)).map fun q => q.weight * f q.k).sum

/-- Hypotheses on the mesh: distinct points with a decisive tolerance, and a group of rotations. -/
structure Good (thr : ℝ) (S : V3 Int) (nProcs : Nat) (useInv : Bool) (sym : List (Mat Int)) (mesh : List (QN ℝ)) : Prop where
  thrPos : 0 < thr
  SPos : ∀ k, 0 < S k
  fine : ∀ k, thr * S k < 0.5
  procs : 0 < nProcs
  group : IsGroup sym
  few : mesh.length < 2 ^ 32
  fewSym : sym.length < 2 ^ 31
  decisive : Decisive thr useInv sym (mesh.map QN.k)

theorem reduced_sum (thr : ℝ) (S : V3 Int) (nProcs : Nat) (useInv : Bool) (sym : List (Mat Int)) (mesh : List (QN ℝ)) (h : Good thr S nProcs useInv sym mesh) :
    ∃ out, reduceKmesh thr S nProcs useInv sym mesh = .ok out ∧
      ∀ f : V3 ℝ → ℝ, (∀ a b, Related useInv sym a b → f b = f a) → meshSum f out.qRed = meshSum f mesh := by
  obtain ⟨out, e, hl, hmap, hred, hpw, _⟩ := C32_reduce_partial thr h.thrPos S h.SPos h.fine nProcs h.procs useInv sym h.group mesh h.few h.fewSym h.decisive
  refine ⟨out, e, ?_⟩
  intro f hf
  have hex : ∀ p ∈ mesh, ∃ q ∈ out.qRed, Related useInv sym q.k p.k := by
    intro p hp
    obtain ⟨d, hd⟩ := List.mem_iff_getElem?.1 hp
    have hdl : d < out.kmap.length := by rw [hl]; exact (List.getElem?_eq_some_iff.1 hd).1
    obtain ⟨q, rot, h1, h2, _, h4, h5⟩ := hmap d p _ hd (List.getElem?_eq_getElem hdl)
    refine ⟨q, List.mem_of_getElem? h1, _, ?_, rot, List.mem_of_getElem? h2, h5⟩
    rcases h4 with h4 | ⟨hu, h4⟩
    · left; rw [h4]; simp
    · right; rw [h4]; simp [hu]
  have hw : ∀ q ∈ out.qRed, q.weight = (mesh.map fun p => if Related useInv sym q.k p.k then p.weight else 0).sum := by
    intro q hq
    obtain ⟨s, p, hp, hk, _, hwt⟩ := hred q hq
    rw [hwt, hk]
    generalize mesh = l
    induction l with
    | nil => rfl
    | cons a l ih =>
      by_cases ha : Related useInv sym p.k a.k
      · rw [List.filter_cons_of_pos (by simpa using ha), List.map_cons, List.sum_cons, List.map_cons, List.sum_cons, if_pos ha, ih]
      · rw [List.filter_cons_of_neg (by simpa using ha), List.map_cons, List.sum_cons, if_neg ha, ih, zero_add]
  unfold meshSum
  have hswap : ∀ (l : List (QN ℝ)) (m : List (QN ℝ)) (g : QN ℝ → QN ℝ → ℝ),
      (l.map fun q => (m.map fun p => g q p).sum).sum = (m.map fun p => (l.map fun q => g q p).sum).sum := by
    intro l m g
    induction l with
    | nil => simp
    | cons a l ih => simp only [List.map_cons, List.sum_cons, ih]; rw [List.sum_map_add]
  have hone : ∀ (l : List (QN ℝ)) (p : QN ℝ), l.Pairwise (fun q q' => ¬Related useInv sym q.k q'.k) → (∃ q ∈ l, Related useInv sym q.k p.k) →
      (l.map fun q => if Related useInv sym q.k p.k then p.weight * f p.k else 0).sum = p.weight * f p.k := by
    intro l p hpw hex
    have hzero : ∀ l : List (QN ℝ), (∀ q ∈ l, ¬Related useInv sym q.k p.k) → (l.map fun q => if Related useInv sym q.k p.k then p.weight * f p.k else 0).sum = 0 := by
      intro l hl
      rw [List.map_congr_left (g := fun _ => (0 : ℝ)) (fun q hq => if_neg (hl q hq))]
      simp
    induction l with
    | nil => obtain ⟨q, hq, _⟩ := hex; simp at hq
    | cons a l ih =>
      rw [List.pairwise_cons] at hpw
      rw [List.map_cons, List.sum_cons]
      by_cases ha : Related useInv sym a.k p.k
      · rw [if_pos ha, hzero l, add_zero]
        intro q hq hr
        exact hpw.1 q hq (Related.trans h.group ha (Related.symm h.group hr))
      · rw [if_neg ha, zero_add]
        apply ih hpw.2
        obtain ⟨q, hq, hr⟩ := hex
        rcases List.mem_cons.1 hq with rfl | hq
        · exact absurd hr ha
        · exact ⟨q, hq, hr⟩
  calc (out.qRed.map fun q => q.weight * f q.k).sum
      = (out.qRed.map fun q => (mesh.map fun p => if Related useInv sym q.k p.k then p.weight * f p.k else 0).sum).sum := by
        congr 1
        apply List.map_congr_left
        intro q hq
        rw [hw q hq]
        rw [← List.sum_map_mul_right]
        congr 1
        apply List.map_congr_left
        intro p _
        by_cases hr : Related useInv sym q.k p.k
        · rw [if_pos hr, if_pos hr, hf _ _ hr]
        · rw [if_neg hr, if_neg hr, zero_mul]
    _ = (mesh.map fun p => (out.qRed.map fun q => if Related useInv sym q.k p.k then p.weight * f p.k else 0).sum).sum := hswap _ _ _
    _ = (mesh.map fun p => p.weight * f p.k).sum := by
        congr 1
        apply List.map_congr_left
        intro p hp
        exact hone out.qRed p hpw (hex p hp)

/-- **C75 (symmetry).** Reduction and spin: for every function of the wave vector that symmetry-related wave vectors share, the weighted sum over the
states of each spin channel is the sum over the complete mesh, with two electrons per state if spin is not resolved and one otherwise. There are no
states of other spin channels. -/
theorem C75_sums (thr : ℝ) (S : V3 Int) (nProcs : Nat) (useInv : Bool) (sym : List (Mat Int)) (mesh : List (QN ℝ)) (h : Good thr S nProcs useInv sym mesh) (t : SpinType) :
    ∃ states, kpointsReduce thr S nProcs useInv sym t none mesh = .ok states ∧
      (∀ q ∈ states, q.index < (if t = .z then 2 else 1)) ∧
      ∀ f : V3 ℝ → ℝ, (∀ a b, Related useInv sym a b → f b = f a) →
        ∀ s < (if t = .z then 2 else 1), stateSum f s states = (if t = .none then 2 else 1) * meshSum f mesh := by
  obtain ⟨out, e, hs⟩ := reduced_sum thr S nProcs useInv sym mesh h
  refine ⟨addSpin t out.qRed, ?_, ?_, ?_⟩
  · unfold kpointsReduce; rw [e]
  · intro q hq
    unfold addSpin at hq
    simp only at hq
    by_cases ht : t = .z
    · rw [if_pos ht] at *
      unfold State.index
      split <;> omega
    · rw [if_neg ht] at *
      obtain ⟨p, _, rfl⟩ := List.mem_map.1 hq
      simp [State.index]
  · intro f hf s hlt
    rw [← hs f hf]
    unfold stateSum meshSum addSpin
    simp only
    generalize out.qRed = l
    by_cases ht : t = .z
    · rw [if_pos ht] at *
      subst ht
      have h1 : ∀ l : List (QN ℝ), ((((l.map fun q => (⟨q.k, 0, q.weight * ((spinWeight .z : Int) : ℝ)⟩ : State)).map fun q => { q with spin := 1 }).filter fun q => decide (q.index = s)).map fun q => q.weight * f q.k).sum
          = if s = 0 then (l.map fun q => q.weight * f q.k).sum else 0 := by
        intro l
        induction l with
        | nil => simp
        | cons a l ih =>
          rw [List.map_cons, List.map_cons]
          by_cases h0 : s = 0
          · subst h0
            rw [List.filter_cons_of_pos (by simp [State.index]), List.map_cons, List.sum_cons, ih]
            simp [spinWeight]
          · rw [List.filter_cons_of_neg (by simp [State.index]; omega), ih, if_neg h0, if_neg h0]
      have h2 : ∀ l : List (QN ℝ), (((l.map fun q => (⟨q.k, -1, q.weight⟩ : State)).filter fun q => decide (q.index = s)).map fun q => q.weight * f q.k).sum
          = if s = 1 then (l.map fun q => q.weight * f q.k).sum else 0 := by
        intro l
        induction l with
        | nil => simp
        | cons a l ih =>
          rw [List.map_cons]
          by_cases h0 : s = 1
          · subst h0
            rw [List.filter_cons_of_pos (by simp [State.index]), List.map_cons, List.sum_cons, ih]
            simp
          · rw [List.filter_cons_of_neg (by simp [State.index]; omega), ih, if_neg h0, if_neg h0]
      rw [List.filter_append, List.map_append, List.sum_append, h1, h2]
      simp only [reduceCtorEq, if_false, one_mul]
      have : s = 0 ∨ s = 1 := by omega
      rcases this with rfl | rfl <;> simp
    · rw [if_neg ht] at *
      have h0 : s = 0 := by omega
      subst h0
      have hsw : ((spinWeight t : Int) : ℝ) = if t = .none then 2 else 1 := by cases t <;> simp [spinWeight]
      rw [hsw]
      generalize (if t = SpinType.none then (2 : ℝ) else 1) = w
      induction l with
      | nil => simp
      | cons a l ih =>
        rw [List.map_cons, List.filter_cons_of_pos (by simp [State.index]), List.map_cons, List.sum_cons, ih, List.map_cons, List.sum_cons]
        ring

/-- The states of the second spin channel have the same wave vectors and weights, in the same order. -/
theorem C75_spin_copies (thr : ℝ) (S : V3 Int) (nProcs : Nat) (useInv : Bool) (sym : List (Mat Int)) (mesh : List (QN ℝ)) (states : List State)
    (h : kpointsReduce thr S nProcs useInv sym .z none mesh = .ok states) :
    ∃ up dn, states = up ++ dn ∧ (∀ q ∈ up, q.spin = 1) ∧ (∀ q ∈ dn, q.spin = -1) ∧
      up.map (fun q => (q.k, q.weight)) = dn.map (fun q => (q.k, q.weight)) := by
  unfold kpointsReduce at h
  cases hr : reduceKmesh thr S nProcs useInv sym mesh with
  | error e => rw [hr] at h; exact absurd h (by simp)
  | ok out =>
    rw [hr] at h
    have h := Except.ok.inj h
    subst h
    refine ⟨_, _, by unfold addSpin; rw [if_pos rfl], ?_, ?_, ?_⟩
    · intro q hq
      simp only [List.mem_map] at hq
      obtain ⟨a, _, rfl⟩ := hq
      rfl
    · intro q hq
      simp only [List.mem_map] at hq
      obtain ⟨a, _, rfl⟩ := hq
      rfl
    · simp [spinWeight, Function.comp_def]

/-- For an incommensurate perturbation every state appears twice, with the wave vector shifted up and down by that of the perturbation. -/
theorem C75_offset (thr : ℝ) (S : V3 Int) (nProcs : Nat) (useInv : Bool) (sym : List (Mat Int)) (t : SpinType) (qvec : V3 ℝ) (mesh : List (QN ℝ)) (states : List State)
    (h : kpointsReduce thr S nProcs useInv sym t none mesh = .ok states) :
    ∃ plus minus, kpointsReduce thr S nProcs useInv sym t (some qvec) mesh = .ok (plus ++ minus) ∧
      List.Forall₂ (fun q p => p.spin = q.spin ∧ p.weight = q.weight ∧ ∀ c, p.k c = q.k c + qvec c) states plus ∧
      List.Forall₂ (fun q p => p.spin = q.spin ∧ p.weight = q.weight ∧ ∀ c, p.k c = q.k c - qvec c) states minus := by
  unfold kpointsReduce at *
  cases hr : reduceKmesh thr S nProcs useInv sym mesh with
  | error e => rw [hr] at h; exact absurd h (by simp)
  | ok out =>
    rw [hr] at h
    have h := Except.ok.inj h
    refine ⟨_, _, rfl, ?_, ?_⟩
    · rw [h, List.forall₂_map_right_iff]
      exact List.forall₂_same.2 fun q _ => ⟨rfl, rfl, fun _ => rfl⟩
    · rw [h, List.forall₂_map_right_iff]
      exact List.forall₂_same.2 fun q _ => ⟨rfl, rfl, fun _ => rfl⟩

/-- **C75 (meshes).** Folding a list of inequivalent k-points whose coordinates are multiples of `1/M`, for example the single point zero, gives meshes
that meet the requirements of the reduction as long as the threshold is below `4/N`, where `N` is a multiple of all `M · kfold`. -/
theorem C75_mesh (thr : ℝ) (hthr : 0 < thr) (useInv : Bool) (sym : List (Mat Int)) (kfold : V3 Int) (hk : ∀ c, 0 < kfold c) (M N : Nat) (hM : 0 < M) (hN : 0 < N) (hNt : thr ≤ 4 / N)
    (hdvd : ∀ c, ((M : Int) * kfold c) ∣ N) (qnums mesh : List (QN ℝ)) (hks : ∀ q ∈ qnums, ∀ c, ∃ z : Int, q.k c = z / M)
    (hd : qnums.Pairwise fun a b => ¬EquivK a.k b.k) (h : kpointsFold kfold qnums = .ok mesh) : Decisive thr useInv sym (mesh.map QN.k) := by
  have hw : |(qnums.map QN.weight).sum - 1| ≤ 1 / 10 ^ 12 := by
    by_contra hc
    rw [C31_rejects kfold qnums (not_le.1 hc)] at h
    exact absurd h (by simp)
  obtain ⟨blocks, e, hf⟩ := C31_fold kfold hk qnums hw
  rw [e] at h
  injection h with h
  subst h
  clear e hw
  have hM' : (M : ℝ) ≠ 0 := by positivity
  have hN' : (N : ℝ) ≠ 0 := by positivity
  apply C32_mesh_decisive thr hthr N hN hNt
  · intro k hkm c
    obtain ⟨p, hp, rfl⟩ := List.mem_map.1 hkm
    obtain ⟨block, hb, hpb⟩ := List.mem_flatten.1 hp
    have : ∃ q ∈ qnums, FoldsTo kfold p.k q.k := by
      clear hks hd hkm hp
      induction hf with
      | nil => simp at hb
      | cons hab _ ih =>
        rcases List.mem_cons.1 hb with rfl | hb
        · exact ⟨_, by simp, hab.2.2.2.2.1 p hpb⟩
        · obtain ⟨q, hq, hfo⟩ := ih hb
          exact ⟨q, by simp [hq], hfo⟩
    obtain ⟨q, hq, hfo⟩ := this
    obtain ⟨n, hn⟩ := hfo c
    obtain ⟨z, hz⟩ := hks q hq c
    obtain ⟨m, hm⟩ := hdvd c
    have hkc : (kfold c : ℝ) ≠ 0 := by have := hk c; exact_mod_cast this.ne'
    have hNm : (N : ℝ) = M * kfold c * m := by exact_mod_cast congrArg (Int.cast : Int → ℝ) hm
    refine ⟨(z + n * M) * m, ?_⟩
    have hm0 : (m : ℝ) ≠ 0 := by intro h0; rw [h0, mul_zero] at hNm; exact hN' hNm
    have : p.k c = (z / M + n) / kfold c := by
      simp only at hn
      rw [eq_div_iff hkc, mul_comm, hn, hz]
    rw [this, hNm]
    push_cast
    field_simp
  · rw [List.pairwise_map]
    clear hks
    induction hf with
    | nil => simp
    | @cons q block qs bs hab hrest ih =>
      rw [List.pairwise_cons] at hd
      rw [List.flatten_cons, List.pairwise_append]
      refine ⟨hab.2.2.2.2.2.1, ih hd.2, ?_⟩
      intro p hp p' hp' heq
      obtain ⟨block', hb', hpb'⟩ := List.mem_flatten.1 hp'
      have : ∃ q' ∈ qs, FoldsTo kfold p'.k q'.k := by
        clear ih hd hp'
        induction hrest with
        | nil => simp at hb'
        | cons hab' _ ih =>
          rcases List.mem_cons.1 hb' with rfl | hb'
          · exact ⟨_, by simp, hab'.2.2.2.2.1 p' hpb'⟩
          · obtain ⟨q, hq, hfo⟩ := ih hb'
            exact ⟨q, by simp [hq], hfo⟩
      obtain ⟨q', hq', hfo'⟩ := this
      apply hd.1 q' hq'
      have h1 := hab.2.2.2.2.1 p hp
      have h2 : FoldsTo kfold p.k q'.k := by
        intro c
        obtain ⟨a, ha⟩ := heq c
        obtain ⟨b, hb⟩ := hfo' c
        refine ⟨kfold c * a + b, ?_⟩
        simp only at hb ⊢
        rw [ha, mul_add, hb]; push_cast; ring
      exact EquivK.trans (EquivK.symm h1) h2

/-- **C75 (electrons).** From the k-points of the input to the electrons in the bands: after folding, reduction and the set-up of fillings with the
automatic number of bands, the weighted fillings of all states add up to the valence electrons plus the extra charge. -/
theorem C75_electrons (thr : ℝ) (S : V3 Int) (nProcs : Nat) (useInv : Bool) (sym : List (Mat Int)) (t : SpinType) (kfold : V3 Int) (hk : ∀ c, 0 < kfold c)
    (qnums mesh : List (QN ℝ)) (hw : (qnums.map QN.weight).sum = 1) (hm : kpointsFold kfold qnums = .ok mesh) (hg : Good thr S nProcs useInv sym mesh) (states : List State)
    (hst : kpointsReduce thr S nProcs useInv sym t none mesh = .ok states)
    (p : Fill.Inp ℝ) (hn : p.nSpins = nSpins t) (hsw : p.spinWeight = spinWeight t) (hM : t ≠ .z → p.Minitial = 0) (hauto : p.nBands = 0)
    (hp : p.states = forFillings states) (nEl : ℝ) (F : List (List ℝ)) (h : Fill.setup p = .ok (nEl, F)) :
    (List.zipWith (fun q f => q.weight * f.sum) states F).sum = p.Qinitial + (p.species.map fun sp => sp.1 * (sp.2 : ℝ)).sum := by
  obtain ⟨states', e, hidx, hsum⟩ := C75_sums thr S nProcs useInv sym mesh hg t
  rw [hst] at e
  have e := Except.ok.inj e
  subst e
  have hsp : p.nSpins = 1 ∧ p.Minitial = 0 ∨ p.nSpins = 2 := by
    by_cases ht : t = .z
    · right; rw [hn, nSpins, if_pos ht]
    · left; exact ⟨by rw [hn, nSpins, if_neg ht], hM ht⟩
  have hpos : 0 < p.spinWeight := by rw [hsw]; cases t <;> norm_num [spinWeight]
  have hone : meshSum (fun _ => 1) mesh = 1 := by
    have := C31_total_weight kfold hk qnums mesh hm
    rw [hw] at this
    simpa only [meshSum, mul_one] using this
  have htot := Fill.C44_total p hsp hpos hauto nEl F h (by
    intro q hq
    rw [hp] at hq
    obtain ⟨x, hx, rfl⟩ := List.mem_map.1 hq
    rw [hn]
    exact hidx x hx) (by
    intro s hs
    rw [hn] at hs
    have := hsum (fun _ => 1) (fun _ _ _ => rfl) s hs
    rw [hone, mul_one] at this
    rw [hsw, hp]
    have h2 : ((spinWeight t : Int) : ℝ) = if t = .none then 2 else 1 := by cases t <;> simp [spinWeight]
    rw [h2, ← this]
    unfold stateSum forFillings
    rw [List.filter_map, List.map_map]
    simp [Function.comp_def])
  rw [(Fill.C44_setup p hsp hpos hauto nEl F h).1] at htot
  rw [hp] at htot
  unfold forFillings at htot
  rw [List.zipWith_map_left] at htot
  exact htot

/-- The point zero folded 2 x 2 x 1, without symmetries except inversion: `Good` holds. -/
example : ∃ mesh, kpointsFold (vec 2 2 1) [(⟨vec 0 0 0, 1⟩ : QN ℝ)] = .ok mesh ∧ Good (1 / 10000) (vec 4 4 4) 3 true [diag 1 1 1] mesh := by
  have hk : ∀ c, (0 : Int) < vec (2 : Int) 2 1 c := by intro c; match c with | 0 | 1 | 2 => simp [vec]
  obtain ⟨blocks, e, hf⟩ := C31_fold (vec 2 2 1) hk [(⟨vec 0 0 0, 1⟩ : QN ℝ)] (by simp)
  refine ⟨_, e, ⟨by norm_num, ?_, ?_, by norm_num, example_group, ?_, by simp, ?_⟩⟩
  · intro c; match c with | 0 | 1 | 2 => simp [vec]
  · intro c; match c with | 0 | 1 | 2 => simp [vec]; norm_num
  · cases hf with
    | cons hab hrest =>
      cases hrest
      have := hab.1
      simp only [vec] at this
      simp at this ⊢
      omega
  · apply C75_mesh (1 / 10000) (by norm_num) true [diag 1 1 1] (vec 2 2 1) hk 1 2 (by norm_num) (by norm_num) (by norm_num) ?_ _ _ ?_ ?_ e
    · intro c; match c with | 0 | 1 | 2 => simp [vec]
    · intro q hq c
      simp only [List.mem_singleton] at hq
      subst hq
      exact ⟨0, by match c with | 0 | 1 | 2 => simp [vec]⟩
    · simp

end
end Jdftx.States
