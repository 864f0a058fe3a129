import Verif.Lemmas.TetraBand
import Verif.Lemmas.TetraPoint
import Verif.Lemmas.TetraMesh
import Mathlib.Data.ZMod.Basic
import Mathlib.Tactic.FinCases

/-!
# C45: the tetrahedron density of states integrates to the number of states
-/
set_option linter.unusedSectionVars false

namespace Jdftx.Tetra
open M3

/-! ## One tetrahedron -/

/-- **C45**, pointwise: at every energy that is not a corner energy, the density a tetrahedron adds is the derivative, with respect to energy, of the
volume of the tetrahedron times the integral of the weight over the part of it below that energy; degeneracies among the corners are allowed. -/
theorem C45_tetrahedron (V : ℝ) (e w : Fin 4 → ℝ) (h01 : e 0 ≤ e 1) (h12 : e 1 ≤ e 2) (h23 : e 2 ≤ e 3) (c : Cspline ℝ) (E : ℝ) (hE : ∀ i, E ≠ e i) :
    HasDerivAt (fun x => V * below e w x) (density (accumSorted V (e 0, w 0) (e 1, w 1) (e 2, w 2) (e 3, w 3) c).ivs E - density c.ivs E) E :=
  accum_deriv V e w h01 h12 h23 c E hE

/-- **C45**, ends: nothing lies below the lowest corner, and the mean of the corner weights below energies above the highest. -/
theorem C45_ends (e w : Fin 4 → ℝ) (h01 : e 0 ≤ e 1) (h12 : e 1 ≤ e 2) (h23 : e 2 ≤ e 3) :
    (∀ E, E ≤ e 0 → below e w E = 0) ∧ ∀ E, e 3 < E → below e w E = (w 0 + w 1 + w 2 + w 3) / 4 := by
  refine ⟨fun E h => by rw [below, if_pos h], fun E h => ?_⟩
  rw [below, if_neg (by linarith), if_neg (by linarith), if_neg (by linarith), if_neg (by linarith)]
  simp [sub, at', corner, Matrix.det_succ_row_zero, Fin.sum_univ_succ, Fin.succAbove]

/-- At an energy in the middle range of a tetrahedron with two equal corners. -/
example : ∃ d, HasDerivAt (fun x => 2 * below ![0, 1, 1, 3] ![1, 2, 3, 4] x) d 2 :=
  ⟨_, C45_tetrahedron 2 ![0, 1, 1, 3] ![1, 2, 3, 4] (by simp) (by simp) (by simp) ⟨[], []⟩ 2 (by intro i; fin_cases i <;> simp)⟩

/-! ## All bands -/

section
variable {K : Type} [Field K] [LinearOrder K] [IsStrictOrderedRing K]

theorem mapM_map {α β : Type} (f : α → Res β) (g : α → β) (l : List α) (h : ∀ a ∈ l, f a = .ok (g a)) : l.mapM f = .ok (l.map g) := by
  induction l with
  | nil => rfl
  | cons a l ih =>
    rw [List.mapM_cons, h a (by simp), ih (fun x hx => h x (by simp [hx]))]
    rfl

/-- **C45**, the whole computation: for every mesh of tetrahedra without gaps in any band, and every choice of eigenvalues and weights, degenerate or not,
the density of states is returned and its integral is the number of weighted states: the sum over bands and tetrahedra of volume times mean corner weight. -/
theorem C45_dos (srt : List (Corner K) → List (Corner K)) (hsrt : SortsBy srt) (nBands : Nat) (e w : Nat → Nat → K) (tets : List (Tet K)) (h4 : ∀ t ∈ tets, t.q.length = 4)
    (hne : tets ≠ []) (hgap : ∀ b, b < nBands → Gapless (e b) tets) (Etol : K) (hE : 0 < Etol) :
    ∃ r, getDOS srt nBands e w tets Etol = .ok r ∧ area r = ((List.range nBands).map fun b => states (w b) tets).sum := by
  have hne' : ∃ t ∈ tets, t.q ≠ [] := by
    obtain ⟨t, ht⟩ := List.exists_mem_of_ne_nil _ hne
    exact ⟨t, ht, fun h => by have := h4 t ht; rw [h] at this; simp at this⟩
  have hband : ∀ b, b < nBands → ∃ s, bandSpline Etol (tets.foldl (fun c t => accumTetrahedron srt (e b) (w b) t c) ⟨[], []⟩) = .ok s ∧ Spl s ∧ area s = states (w b) tets := by
    intro b hb
    have := fold_inv srt hsrt (e b) (w b) tets [] ⟨[], []⟩ h4 (inv_start _ _)
    rw [List.nil_append] at this
    exact band_spec (e b) (w b) tets hne' (hgap b hb) Etol hE _ this
  classical
  let f : Nat → List (K × K) := fun b => if hb : b < nBands then (hband b hb).choose else []
  have hf : ∀ b (hb : b < nBands), bandSpline Etol (tets.foldl (fun c t => accumTetrahedron srt (e b) (w b) t c) ⟨[], []⟩) = .ok (f b) ∧ Spl (f b) ∧ area (f b) = states (w b) tets := by
    intro b hb
    have := (hband b hb).choose_spec
    simp only [f, dif_pos hb]
    exact this
  have hm : (List.range nBands).mapM (fun b => bandSpline Etol (tets.foldl (fun c t => accumTetrahedron srt (e b) (w b) t c) ⟨[], []⟩)) = .ok ((List.range nBands).map f) :=
    mapM_map _ _ _ (fun b hb => (hf b (List.mem_range.1 hb)).1)
  obtain ⟨r, h1, h2⟩ := merge_spec ((List.range nBands).map f) (by
    intro s hs
    obtain ⟨b, hb, rfl⟩ := List.mem_map.1 hs
    exact (hf b (List.mem_range.1 hb)).2.1)
  refine ⟨r, ?_, ?_⟩
  · unfold getDOS
    rw [hm]
    exact h1
  · rw [h2, List.map_map]
    congr 1
    exact List.map_congr_left fun b hb => (hf b (List.mem_range.1 hb)).2.2

/-- **C45**, connected meshes: with a connected mesh nothing needs to be known about the energies. -/
theorem C45_dos_connected (srt : List (Corner K) → List (Corner K)) (hsrt : SortsBy srt) (nBands : Nat) (e w : Nat → Nat → K) (tets : List (Tet K)) (h4 : ∀ t ∈ tets, t.q.length = 4)
    (hne : tets ≠ []) (hc : Connected tets) (Etol : K) (hE : 0 < Etol) :
    ∃ r, getDOS srt nBands e w tets Etol = .ok r ∧ area r = ((List.range nBands).map fun b => states (w b) tets).sum :=
  C45_dos srt hsrt nBands e w tets h4 hne (fun b _ => connected_gapless tets hc (e b)) Etol hE

/-- **C45**, meshes of a crystal: the tetrahedra built on a mesh whose points differ by the steps of the mesh, up to reciprocal lattice vectors, are
connected, also after reduction by symmetries. `Q` holds positions up to reciprocal lattice vectors and `b` the steps of the mesh. -/
theorem C45_mesh {Q : Type} [AddCommGroup Q] (nk : Nat) (κ : Nat → Q) (hinj : ∀ i, i < nk → ∀ i', i' < nk → κ i = κ i' → i = i') (b : Fin 3 → Q)
    (nb : Nat → Nat → Nat) (hnb : ∀ i, i < nk → ∀ j, j < 8 → nb i j < nk)
    (hpos : ∀ i, i < nk → ∀ j, j < 8 → κ (nb i j) = κ i + ((j / 4 % 2) • b 0 + (j / 2 % 2) • b 1 + (j % 2) • b 2))
    (hgen : ∀ i, i < nk → ∀ i', i' < nk → κ i' - κ i ∈ AddSubgroup.closure (Set.range b)) (red : Nat → Nat) (V : Nat → Nat → K) :
    Connected (meshTets red nb nk V) ∧ ∀ t ∈ meshTets red nb nk V, t.q.length = 4 := by
  refine ⟨mesh_connected red nb nk V ?_ hnb (lattice_reach nk κ hinj b nb hnb hpos hgen), ?_⟩
  · intro i hi
    refine hinj _ (hnb i hi 0 (by omega)) i hi ?_
    rw [hpos i hi 0 (by omega)]; simp
  · intro t ht
    obtain ⟨i, _, c, _, hq⟩ := mesh_mem red nb nk V t ht
    rw [hq]; rfl

end

/-- Sorts exist. -/
def sortQ (l : List (Corner ℚ)) : List (Corner ℚ) := l.insertionSort fun a b => a.1 ≤ b.1

theorem sortQ_sorts : SortsBy sortQ := by
  intro l
  have : Std.Total (fun a b : Corner ℚ => a.1 ≤ b.1) := ⟨fun a b => le_total _ _⟩
  have : IsTrans (Corner ℚ) (fun a b => a.1 ≤ b.1) := ⟨fun a b c h1 h2 => le_trans h1 h2⟩
  exact ⟨List.perm_insertionSort _ _, List.pairwise_insertionSort _ _⟩

/-- Two tetrahedra that share a corner; one of them flat in the first band. -/
example : ∃ r, getDOS sortQ 2 (fun b q => if b = 0 then ([0, 0, 0, 0, 1, 1, 2] : List ℚ).getD q 0 else q) (fun _ q => q) [⟨[0, 1, 2, 3], 1⟩, ⟨[3, 4, 5, 6], 2⟩] (1 / 10) = .ok r ∧
    area r = ((List.range 2).map fun _ => states (fun q => (q : ℚ)) [⟨[0, 1, 2, 3], 1⟩, ⟨[3, 4, 5, 6], 2⟩]).sum :=
  C45_dos_connected sortQ sortQ_sorts 2 _ (fun _ q => q) _ (by intro t ht; simp at ht; rcases ht with rfl | rfl <;> rfl) (by simp) (by
    intro S h1 h2
    by_contra hno
    push Not at hno
    have a := hno ⟨[0, 1, 2, 3], 1⟩ (by simp)
    have b := hno ⟨[3, 4, 5, 6], 2⟩ (by simp)
    simp at h1 h2 a b
    tauto) _ (by norm_num)

/-- A ring of three mesh points. -/
example : Connected (meshTets id (fun i j => (i + j / 4 % 2) % 3) 3 fun _ _ => (1 : ℚ)) :=
  (C45_mesh (Q := ZMod 3) 3 (fun i => (i : ZMod 3)) (by
      intro i hi i' hi' h
      have := (ZMod.natCast_eq_natCast_iff' i i' 3).1 h
      rwa [Nat.mod_eq_of_lt hi, Nat.mod_eq_of_lt hi'] at this) ![1, 0, 0] _ (fun i _ j _ => Nat.mod_lt _ (by omega)) (by
      intro i _ j _
      show (((i + j / 4 % 2) % 3 : ℕ) : ZMod 3) = _
      rw [ZMod.natCast_mod]
      simp) (by
      intro i _ i' _
      have : (i' : ZMod 3) - i = (((i' : ℤ) - i : ℤ)) • (1 : ZMod 3) := by simp
      rw [this]
      exact AddSubgroup.zsmul_mem _ (AddSubgroup.subset_closure (Set.mem_range.2 ⟨(0 : Fin 3), rfl⟩)) _) id _).1

/-! ## Welding -/

section
variable {K : Type} [Field K] [LinearOrder K] [IsStrictOrderedRing K]

/-- **C45**, welding: every eigenvalue is replaced by the mean of those joined to it by steps of at most the tolerance. -/
theorem C45_weld (Etol : K) (hE : 0 ≤ Etol) (eigs : List K) : (weld Etol eigs).length = eigs.length ∧
    ∀ i, i < eigs.length → ∃ cl : List Nat, cl.Nodup ∧ (∀ j, j ∈ cl ↔ Linked eigs Etol i j) ∧ (weld Etol eigs)[i]? = some ((cl.map fun j => eigs.getD j 0).sum / (cl.length : K)) := by
  obtain ⟨gs, h1, h2, h3, h4, h5, h6⟩ := weld_groups Etol hE eigs
  refine ⟨h5, fun i hi => ?_⟩
  have hmem : (eigs[i], i) ∈ gs.flatten := h1.mem_iff.2 (List.mem_zipIdx_iff_getElem?.2 (List.getElem?_eq_getElem hi))
  obtain ⟨g, hg, hig⟩ := List.mem_flatten.1 hmem
  refine ⟨g.map Prod.snd, ?_, ?_, ?_⟩
  · have hnd : (gs.flatten.map Prod.snd).Nodup := by
      rw [(h1.map Prod.snd).nodup_iff, List.zipIdx_map_snd]
      exact List.nodup_range'
    exact hnd.sublist ((List.sublist_flatten_of_mem hg).map _)
  · intro j
    rw [h4 g hg _ hig j, List.mem_map]
  · rw [h6 g hg _ hig]
    have : (g.map Prod.snd).map (fun j => eigs.getD j 0) = g.map Prod.fst := by
      rw [List.map_map]
      refine List.map_congr_left fun c hc => ?_
      have hc' : c ∈ eigs.zipIdx := h1.mem_iff.1 (List.mem_flatten.2 ⟨g, hg, hc⟩)
      have := List.mem_zipIdx_iff_getElem?.1 hc'
      simp [List.getD, this]
    rw [this, List.length_map]
    rfl

theorem mean_lt (g : List (K × Nat)) (hg : g ≠ []) (c : K) (h : ∀ a ∈ g, a.1 < c) : mean g < c := by
  have hpos : (0 : K) < (g.length : K) := Nat.cast_pos.2 (List.length_pos_iff.2 hg)
  have hsum : (g.map Prod.fst).sum < g.length * c := by
    clear hpos
    induction g with
    | nil => exact absurd rfl hg
    | cons a g ih =>
      have ha := h a (by simp)
      by_cases hg' : g = []
      · subst hg'; simpa using ha
      · have := ih hg' (fun x hx => h x (by simp [hx]))
        simp only [List.map_cons, List.sum_cons, List.length_cons, Nat.cast_succ]
        linarith
  unfold mean
  rw [div_lt_iff₀ hpos]
  linarith

theorem lt_mean (g : List (K × Nat)) (hg : g ≠ []) (c : K) (h : ∀ a ∈ g, c < a.1) : c < mean g := by
  have hpos : (0 : K) < (g.length : K) := Nat.cast_pos.2 (List.length_pos_iff.2 hg)
  have hsum : g.length * c < (g.map Prod.fst).sum := by
    clear hpos
    induction g with
    | nil => exact absurd rfl hg
    | cons a g ih =>
      have ha := h a (by simp)
      by_cases hg' : g = []
      · subst hg'; simpa using ha
      · have := ih hg' (fun x hx => h x (by simp [hx]))
        simp only [List.map_cons, List.sum_cons, List.length_cons, Nat.cast_succ]
        linarith
  unfold mean
  rw [lt_div_iff₀ hpos]
  linarith

/-- **C45**, after welding: eigenvalues are equal if they were linked, and otherwise more than the tolerance apart and in the order they had. -/
theorem C45_weld_apart (Etol : K) (hE : 0 ≤ Etol) (eigs : List K) (i j : Nat) (x y a b : K) (hx : eigs[i]? = some x) (hy : eigs[j]? = some y) (ha : (weld Etol eigs)[i]? = some a)
    (hb : (weld Etol eigs)[j]? = some b) : (Linked eigs Etol i j → a = b) ∧ (¬ Linked eigs Etol i j → (x < y ∧ a + Etol < b) ∨ (y < x ∧ b + Etol < a)) := by
  obtain ⟨gs, h1, h2, h3, h4, h5, h6⟩ := weld_groups Etol hE eigs
  obtain ⟨g, hg, hig⟩ := List.mem_flatten.1 (h1.mem_iff.2 (List.mem_zipIdx_iff_getElem?.2 (show eigs[(x, i).2]? = some (x, i).1 from hx)))
  obtain ⟨g', hg', hjg⟩ := List.mem_flatten.1 (h1.mem_iff.2 (List.mem_zipIdx_iff_getElem?.2 (show eigs[(y, j).2]? = some (y, j).1 from hy)))
  have ea : a = mean g := Option.some.inj (ha.symm.trans (h6 g hg _ hig))
  have eb : b = mean g' := Option.some.inj (hb.symm.trans (h6 g' hg' _ hjg))
  constructor
  · intro hl
    obtain ⟨c, hc, hcj⟩ := (h4 g hg _ hig j).1 hl
    have h7 := h6 g hg c hc
    rw [hcj] at h7
    rw [ea]
    exact Option.some.inj (h7.symm.trans hb)
  · intro hl
    have hne : g ≠ g' := by
      rintro rfl
      exact hl ((h4 g hg _ hig j).2 ⟨_, hjg, rfl⟩)
    have key : ∀ g g' : List (K × Nat), g ∈ gs → g' ∈ gs → (∀ a ∈ g, ∀ b ∈ g', a.1 + Etol < b.1) → mean g + Etol < mean g' := by
      intro g g' hg hg' h
      refine lt_mean g' (h2 g' hg') _ fun b hb => ?_
      have := mean_lt g (h2 g hg) (b.1 - Etol) fun a ha => by linarith [h a ha b hb]
      linarith
    rcases pairwise_or _ _ h3 g hg g' hg' hne with h | h
    · left
      rw [ea, eb]
      refine ⟨?_, key g g' hg hg' h⟩
      have := h _ hig _ hjg
      simp only at this
      linarith
    · right
      rw [ea, eb]
      refine ⟨?_, key g' g hg' hg h⟩
      have := h _ hjg _ hig
      simp only at this
      linarith

/-- **C45**, welding keeps the sum of the eigenvalues. -/
theorem C45_weld_sum (Etol : K) (hE : 0 ≤ Etol) (eigs : List K) : (weld Etol eigs).sum = eigs.sum := by
  obtain ⟨gs, h1, h2, h3, h4, h5, h6⟩ := weld_groups Etol hE eigs
  have e1 : weld Etol eigs = eigs.zipIdx.map fun c => (weld Etol eigs).getD c.2 0 := by
    apply List.ext_getElem?
    intro i
    rw [List.getElem?_map, List.getElem?_zipIdx]
    by_cases hi : i < eigs.length
    · rw [List.getElem?_eq_getElem hi, List.getElem?_eq_getElem (by rw [h5]; exact hi)]
      simp [List.getD, List.getElem?_eq_getElem (show i < (weld Etol eigs).length by rw [h5]; exact hi)]
    · rw [List.getElem?_eq_none (by rw [h5]; omega), List.getElem?_eq_none (by omega)]
      rfl
  have e2 : eigs = eigs.zipIdx.map Prod.fst := (List.zipIdx_map_fst 0 eigs).symm
  rw [e1]
  conv_rhs => rw [e2]
  rw [← (h1.map _).sum_eq, ← (h1.map Prod.fst).sum_eq]
  clear h1 h3 h4 e1 e2
  induction gs with
  | nil => simp
  | cons g gs ih =>
    rw [List.flatten_cons, List.map_append, List.map_append, List.sum_append, List.sum_append, ih (fun g hg => h2 g (by simp [hg])) (fun g hg => h6 g (by simp [hg]))]
    congr 1
    have hc : g.map (fun c => (weld Etol eigs).getD c.2 0) = g.map fun _ => mean g := by
      refine List.map_congr_left fun c hc => ?_
      simp [List.getD, h6 g (by simp) c hc]
    rw [hc, List.map_const', List.sum_replicate, nsmul_eq_mul]
    have : (g.length : K) ≠ 0 := Nat.cast_ne_zero.2 (by simpa using h2 g (by simp))
    unfold mean
    field_simp

end

/-- Three eigenvalues in a chain and one apart. -/
example : weld (1 / 10 : ℚ) [0, 2, 1 / 5, 1 / 10] = [1 / 10, 2, 1 / 10, 1 / 10] := by decide +kernel

/-! ## Tetrahedra of a cell -/

/-- **C45**, volumes: all tetrahedra have the same volume and their volumes sum to the given weight. -/
theorem C45_volumes {K : Type} [Field K] [CharZero K] (GT B : Mat K) (s : V3 K) (kmesh : List (V3 K)) (weightSum : K) (hG : M3.det GT ≠ 0) (hB : M3.det B ≠ 0) (hs : ∀ i, s i ≠ 0)
    (hk : kmesh ≠ []) : volumes GT B s kmesh weightSum = List.replicate (6 * kmesh.length) (weightSum / (6 * kmesh.length)) ∧ (volumes GT B s kmesh weightSum).sum = weightSum := by
  set d := M3.det GT * (M3.det B * (s 0 * s 1 * s 2)) with hd
  have hd0 : d ≠ 0 := mul_ne_zero hG (mul_ne_zero hB (mul_ne_zero (mul_ne_zero (hs 0) (hs 1)) (hs 2)))
  have hraw : (kmesh.flatMap fun v0 => cellVerts.map (rawVolume GT B s v0)) = List.replicate (6 * kmesh.length) d := by
    clear hk
    induction kmesh with
    | nil => rfl
    | cons v l ih =>
      rw [List.flatMap_cons, ih]
      have : cellVerts.map (rawVolume GT B s v) = List.replicate 6 d := by
        rw [List.map_congr_left (fun c hc => rawVolume_eq GT B s v c hc)]
        rfl
      rw [this, List.replicate_append_replicate, List.length_cons]
      congr 1
      omega
  have hn : (kmesh.length : K) ≠ 0 := Nat.cast_ne_zero.2 (by simpa using hk)
  have hval : d * (weightSum / (List.replicate (6 * kmesh.length) d).sum) = weightSum / (6 * kmesh.length) := by
    rw [List.sum_replicate, nsmul_eq_mul]
    push_cast
    field_simp
  have hv : volumes GT B s kmesh weightSum = List.replicate (6 * kmesh.length) (weightSum / (6 * kmesh.length)) := by
    unfold volumes
    simp only
    rw [hraw, List.map_replicate, hval]
  refine ⟨hv, ?_⟩
  rw [hv, List.sum_replicate, nsmul_eq_mul]
  push_cast
  field_simp

theorem comb_iff (t : Nat × Nat × Nat × Nat) (p : Fin 3 → ℝ) (a b c d : ℝ) : Combination t p a b c d ↔
    a + b + c + d = 1 ∧ p 0 = a * vert t.1 0 + b * vert t.2.1 0 + c * vert t.2.2.1 0 + d * vert t.2.2.2 0 ∧
      p 1 = a * vert t.1 1 + b * vert t.2.1 1 + c * vert t.2.2.1 1 + d * vert t.2.2.2 1 ∧ p 2 = a * vert t.1 2 + b * vert t.2.1 2 + c * vert t.2.2.1 2 + d * vert t.2.2.2 2 := by
  unfold Combination
  constructor
  · rintro ⟨h, h'⟩; exact ⟨h, h' 0, h' 1, h' 2⟩
  · rintro ⟨h, h0, h1, h2⟩
    refine ⟨h, fun i => ?_⟩
    match i with
    | 0 => exact h0
    | 1 => exact h1
    | 2 => exact h2

/-- **C45**, tiling: the six tetrahedra fill the cell, and none reaches into the interior of another. -/
theorem C45_tiling : (∀ p : Fin 3 → ℝ, (∀ i, 0 ≤ p i ∧ p i ≤ 1) → ∃ t ∈ cellVerts, ∃ a b c d, 0 ≤ a ∧ 0 ≤ b ∧ 0 ≤ c ∧ 0 ≤ d ∧ Combination t p a b c d) ∧
    ∀ (p : Fin 3 → ℝ) (t t' : Nat × Nat × Nat × Nat) (a b c d a' b' c' d' : ℝ), t ∈ cellVerts → t' ∈ cellVerts → 0 < a → 0 < b → 0 < c → 0 < d → Combination t p a b c d →
      0 ≤ a' → 0 ≤ b' → 0 ≤ c' → 0 ≤ d' → Combination t' p a' b' c' d' → t = t' := by
  constructor
  · intro p hp
    have h0 := hp 0
    have h1 := hp 1
    have h2 := hp 2
    rcases le_total (p 0) (p 1) with h01 | h01 <;> rcases le_total (p 1) (p 2) with h12 | h12 <;> rcases le_total (p 0) (p 2) with h02 | h02
    · refine ⟨(0, 3, 1, 7), by decide, 1 - p 2, p 1 - p 0, p 2 - p 1, p 0, ?_, ?_, ?_, ?_, (comb_iff _ _ _ _ _ _).2 ?_⟩ <;> (try linarith)
      simp [vert]; try ring1
    · refine ⟨(0, 3, 1, 7), by decide, 1 - p 2, p 1 - p 0, p 2 - p 1, p 0, ?_, ?_, ?_, ?_, (comb_iff _ _ _ _ _ _).2 ?_⟩ <;> (try linarith)
      simp [vert]; try ring1
    · refine ⟨(0, 2, 3, 7), by decide, 1 - p 1, p 1 - p 2, p 2 - p 0, p 0, ?_, ?_, ?_, ?_, (comb_iff _ _ _ _ _ _).2 ?_⟩ <;> (try linarith)
      simp [vert]; try ring1
    · refine ⟨(0, 6, 2, 7), by decide, 1 - p 1, p 0 - p 2, p 1 - p 0, p 2, ?_, ?_, ?_, ?_, (comb_iff _ _ _ _ _ _).2 ?_⟩ <;> (try linarith)
      simp [vert]; try ring1
    · refine ⟨(0, 1, 5, 7), by decide, 1 - p 2, p 2 - p 0, p 0 - p 1, p 1, ?_, ?_, ?_, ?_, (comb_iff _ _ _ _ _ _).2 ?_⟩ <;> (try linarith)
      simp [vert]; try ring1
    · refine ⟨(0, 5, 4, 7), by decide, 1 - p 0, p 2 - p 1, p 0 - p 2, p 1, ?_, ?_, ?_, ?_, (comb_iff _ _ _ _ _ _).2 ?_⟩ <;> (try linarith)
      simp [vert]; try ring1
    · refine ⟨(0, 4, 6, 7), by decide, 1 - p 0, p 0 - p 1, p 1 - p 2, p 2, ?_, ?_, ?_, ?_, (comb_iff _ _ _ _ _ _).2 ?_⟩ <;> (try linarith)
      simp [vert]; try ring1
    · refine ⟨(0, 4, 6, 7), by decide, 1 - p 0, p 0 - p 1, p 1 - p 2, p 2, ?_, ?_, ?_, ?_, (comb_iff _ _ _ _ _ _).2 ?_⟩ <;> (try linarith)
      simp [vert]; try ring1
  · intro p t t' a b c d a' b' c' d' ht ht' ha hb hc hd h ha' hb' hc' hd' h'
    rw [comb_iff] at h h'
    simp only [cellVerts, List.mem_cons, List.not_mem_nil, or_false] at ht ht'
    rcases ht with rfl | rfl | rfl | rfl | rfl | rfl <;> rcases ht' with rfl | rfl | rfl | rfl | rfl | rfl <;>
      first
      | rfl
      | (exfalso
         simp [vert] at h h'
         obtain ⟨g0, g1, g2, g3⟩ := h
         obtain ⟨k0, k1, k2, k3⟩ := h'
         linarith)

/-- The vertices of the code are the images of these. -/
theorem C45_vertices (B : Mat ℝ) (s : V3 ℝ) (j : Nat) : dk B s j = mulMV B fun i => vert j i * s i := by
  funext i
  simp [dk, mulMV, vert, vec]

/-! ## Where the code fails -/

/-- Two flat tetrahedra at different energies, which no third one connects: the first element of an empty map is read. -/
theorem C45_flat_violation : getDOS (K := ℚ) sortQ 1 (fun _ q => if q < 4 then 0 else 1) (fun _ _ => 1) [⟨[0, 1, 2, 3], 1⟩, ⟨[4, 5, 6, 7], 1⟩] (1 / 10) = .error .ub := by
  decide +kernel

/-- A gap in a band: the run stops. -/
theorem C45_gap_violation : getDOS (K := ℚ) sortQ 1 (fun _ q => q) (fun _ _ => 1) [⟨[0, 1, 2, 3], 1⟩, ⟨[4, 5, 6, 7], 1⟩] (1 / 10) = .error .die := by
  decide +kernel

/-- A flat tetrahedron below the range of the others is lost: half of the states are missing from the result. -/
theorem C45_outside_violation : ∃ r, getDOS (K := ℚ) sortQ 1 (fun _ q => if q < 4 then 0 else q) (fun _ _ => 1) [⟨[0, 1, 2, 3], 1⟩, ⟨[4, 5, 6, 7], 1⟩] (1 / 10) = .ok r ∧ area r = 1 ∧
    states (fun _ => (1 : ℚ)) [⟨[0, 1, 2, 3], 1⟩, ⟨[4, 5, 6, 7], 1⟩] = 2 := by
  refine ⟨(match getDOS (K := ℚ) sortQ 1 (fun _ q => if q < 4 then 0 else q) (fun _ _ => 1) [⟨[0, 1, 2, 3], 1⟩, ⟨[4, 5, 6, 7], 1⟩] (1 / 10) with | .ok r => r | .error _ => []), ?_, ?_, ?_⟩ <;> decide +kernel

end Jdftx.Tetra
