import Verif.Lemmas.TetraWeld
import Verif.Lemmas.Mat3
import Mathlib.Algebra.Group.Subgroup.Lattice
import Mathlib.Data.Fintype.EquivFin
import Mathlib.Data.Fintype.Basic

/-! # Lemmas for the tetrahedra of a mesh -/
set_option linter.unusedSectionVars false

namespace Jdftx.Tetra
open M3

theorem mesh_mem {K : Type} (red : Nat → Nat) (nb : Nat → Nat → Nat) (nk : Nat) (V : Nat → Nat → K) (t : Tet K) (h : t ∈ meshTets red nb nk V) :
    ∃ i, i < nk ∧ ∃ c ∈ cellVerts, t.q = [red (nb i c.1), red (nb i c.2.1), red (nb i c.2.2.1), red (nb i c.2.2.2)] := by
  obtain ⟨i, hi, ht⟩ := List.mem_flatMap.1 h
  obtain ⟨c, hc, rfl⟩ := List.mem_map.1 ht
  exact ⟨i, List.mem_range.1 hi, c.1, by
    have := List.mem_map_of_mem (f := Prod.fst) hc
    rwa [List.zipIdx_map_fst] at this, rfl⟩

theorem mesh_of {K : Type} (red : Nat → Nat) (nb : Nat → Nat → Nat) (nk : Nat) (V : Nat → Nat → K) (i : Nat) (hi : i < nk) (c : Nat × Nat × Nat × Nat) (hc : c ∈ cellVerts) :
    ∃ t ∈ meshTets red nb nk V, t.q = [red (nb i c.1), red (nb i c.2.1), red (nb i c.2.2.1), red (nb i c.2.2.2)] := by
  have : c ∈ cellVerts.zipIdx.map Prod.fst := by rw [List.zipIdx_map_fst]; exact hc
  obtain ⟨p, hp, rfl⟩ := List.mem_map.1 this
  exact ⟨_, List.mem_flatMap.2 ⟨i, List.mem_range.2 hi, List.mem_map.2 ⟨p, hp, rfl⟩⟩, rfl⟩

/-- The vertices of a cell share tetrahedra with its first vertex. -/
theorem vertex_in_cell (j : Nat) (hj : j < 8) : ∃ c ∈ cellVerts, c.1 = 0 ∧ (j = c.1 ∨ j = c.2.1 ∨ j = c.2.2.1 ∨ j = c.2.2.2) := by
  have : j = 0 ∨ j = 1 ∨ j = 2 ∨ j = 3 ∨ j = 4 ∨ j = 5 ∨ j = 6 ∨ j = 7 := by omega
  rcases this with rfl | rfl | rfl | rfl | rfl | rfl | rfl | rfl <;> decide

theorem verts_lt (c : Nat × Nat × Nat × Nat) (hc : c ∈ cellVerts) : c.1 = 0 ∧ c.2.1 < 8 ∧ c.2.2.1 < 8 ∧ c.2.2.2 < 8 := by
  revert c; decide

/-- A set of vertices no tetrahedron reaches out of holds all the vertices reached from one it holds. -/
theorem mesh_connected {K : Type} (red : Nat → Nat) (nb : Nat → Nat → Nat) (nk : Nat) (V : Nat → Nat → K) (h0 : ∀ i, i < nk → nb i 0 = i) (hnb : ∀ i, i < nk → ∀ j, j < 8 → nb i j < nk)
    (hreach : ∀ P : Nat → Prop, (∀ i, i < nk → ∀ j, j < 8 → (P i ↔ P (nb i j))) → ∀ i, i < nk → ∀ i', i' < nk → (P i ↔ P i')) : Connected (meshTets red nb nk V) := by
  intro S h1 h2
  by_contra hno
  push Not at hno
  have hstep : ∀ i, i < nk → ∀ j, j < 8 → (S (red i) ↔ S (red (nb i j))) := by
    intro i hi j hj
    obtain ⟨c, hc, hc0, hjc⟩ := vertex_in_cell j hj
    obtain ⟨t, ht, hq⟩ := mesh_of red nb nk V i hi c hc
    have hm0 : red i ∈ t.q := by rw [hq, hc0, h0 i hi]; simp
    have hmj : red (nb i j) ∈ t.q := by rw [hq]; rcases hjc with e | e | e | e <;> rw [e] <;> simp
    constructor
    · intro hS; exact hno t ht ⟨_, hm0, hS⟩ _ hmj
    · intro hS; exact hno t ht ⟨_, hmj, hS⟩ _ hm0
  have hall := hreach (fun i => S (red i)) hstep
  have hin : ∀ t ∈ meshTets red nb nk V, ∀ q ∈ t.q, ∃ i, i < nk ∧ q = red i := by
    intro t ht q hq
    obtain ⟨i, hi, c, hc, hqq⟩ := mesh_mem red nb nk V t ht
    obtain ⟨v0, v1, v2, v3⟩ := verts_lt c hc
    rw [hqq] at hq
    simp only [List.mem_cons, List.not_mem_nil, or_false] at hq
    rcases hq with e | e | e | e
    · exact ⟨nb i c.1, by rw [v0]; exact hnb i hi 0 (by omega), e⟩
    · exact ⟨_, hnb i hi _ v1, e⟩
    · exact ⟨_, hnb i hi _ v2, e⟩
    · exact ⟨_, hnb i hi _ v3, e⟩
  obtain ⟨t1, ht1, q1, hq1, hS1⟩ := h1
  obtain ⟨t2, ht2, q2, hq2, hS2⟩ := h2
  obtain ⟨i1, hi1, rfl⟩ := hin t1 ht1 q1 hq1
  obtain ⟨i2, hi2, rfl⟩ := hin t2 ht2 q2 hq2
  exact hS2 ((hall i1 hi1 i2 hi2).1 hS1)

/-- Steps of a lattice reach every point of the mesh. -/
theorem lattice_reach {Q : Type} [AddCommGroup Q] (nk : Nat) (κ : Nat → Q) (hinj : ∀ i, i < nk → ∀ i', i' < nk → κ i = κ i' → i = i') (b : Fin 3 → Q)
    (nb : Nat → Nat → Nat) (hnb : ∀ i, i < nk → ∀ j, j < 8 → nb i j < nk)
    (hpos : ∀ i, i < nk → ∀ j, j < 8 → κ (nb i j) = κ i + ((j / 4 % 2) • b 0 + (j / 2 % 2) • b 1 + (j % 2) • b 2))
    (hgen : ∀ i, i < nk → ∀ i', i' < nk → κ i' - κ i ∈ AddSubgroup.closure (Set.range b))
    (P : Nat → Prop) (hP : ∀ i, i < nk → ∀ j, j < 8 → (P i ↔ P (nb i j))) : ∀ i, i < nk → ∀ i', i' < nk → (P i ↔ P i') := by
  -- one step along a direction
  have hdir : ∀ d : Fin 3, ∃ j, j < 8 ∧ ∀ i, i < nk → κ (nb i j) = κ i + b d := by
    intro d
    match d with
    | 0 => exact ⟨4, by omega, fun i hi => by rw [hpos i hi 4 (by omega)]; simp⟩
    | 1 => exact ⟨2, by omega, fun i hi => by rw [hpos i hi 2 (by omega)]; simp⟩
    | 2 => exact ⟨1, by omega, fun i hi => by rw [hpos i hi 1 (by omega)]; simp⟩
  -- a step back
  have hback : ∀ d : Fin 3, ∀ i, i < nk → ∃ i', i' < nk ∧ κ i' = κ i - b d ∧ (P i ↔ P i') := by
    intro d i hi
    obtain ⟨j, hj, hstep⟩ := hdir d
    let f : Fin nk → Fin nk := fun i => ⟨nb i j, hnb i i.2 j hj⟩
    have hf : Function.Injective f := by
      intro x y hxy
      have h1 : nb x j = nb y j := congrArg Fin.val hxy
      have h2 : κ x + b d = κ y + b d := by rw [← hstep x x.2, ← hstep y y.2, h1]
      exact Fin.ext (hinj x x.2 y y.2 (add_right_cancel h2))
    obtain ⟨x, hx⟩ := (Finite.injective_iff_surjective.1 hf) ⟨i, hi⟩
    have hx' : nb x j = i := congrArg Fin.val hx
    refine ⟨x, x.2, ?_, ?_⟩
    · rw [← hx', hstep x x.2]; simp
    · rw [hP x x.2 j hj, hx']
  have key : ∀ g ∈ AddSubgroup.closure (Set.range b), ∀ i, i < nk → ∃ i', i' < nk ∧ κ i' = κ i + g ∧ (P i ↔ P i') := by
    intro g hg
    have hboth : (∀ i, i < nk → ∃ i', i' < nk ∧ κ i' = κ i + g ∧ (P i ↔ P i')) ∧ (∀ i, i < nk → ∃ i', i' < nk ∧ κ i' = κ i - g ∧ (P i ↔ P i')) := by
      induction hg using AddSubgroup.closure_induction with
      | mem x hx =>
        obtain ⟨d, rfl⟩ := hx
        obtain ⟨j, hj, hstep⟩ := hdir d
        exact ⟨fun i hi => ⟨nb i j, hnb i hi j hj, hstep i hi, hP i hi j hj⟩, hback d⟩
      | zero => exact ⟨fun i hi => ⟨i, hi, by simp, Iff.rfl⟩, fun i hi => ⟨i, hi, by simp, Iff.rfl⟩⟩
      | add x y _ _ ih1 ih2 =>
        refine ⟨fun i hi => ?_, fun i hi => ?_⟩
        · obtain ⟨i1, a1, a2, a3⟩ := ih1.1 i hi
          obtain ⟨i2, b1, b2, b3⟩ := ih2.1 i1 a1
          exact ⟨i2, b1, by rw [b2, a2]; abel, a3.trans b3⟩
        · obtain ⟨i1, a1, a2, a3⟩ := ih1.2 i hi
          obtain ⟨i2, b1, b2, b3⟩ := ih2.2 i1 a1
          exact ⟨i2, b1, by rw [b2, a2]; abel, a3.trans b3⟩
      | neg x _ ih => exact ⟨fun i hi => by
          obtain ⟨i', a, b, c⟩ := ih.2 i hi; exact ⟨i', a, by rw [b]; abel, c⟩, fun i hi => by
          obtain ⟨i', a, b, c⟩ := ih.1 i hi; exact ⟨i', a, by rw [b]; abel, c⟩⟩
    exact hboth.1
  intro i hi i' hi'
  obtain ⟨i2, h1, h2, h3⟩ := key _ (hgen i hi i' hi') i hi
  rw [add_sub_cancel] at h2
  rw [hinj i2 h1 i' hi' h2] at h3
  exact h3

theorem box_mulMV {K : Type} [CommRing K] (M : Mat K) (a b c : V3 K) : box (mulMV M a) (mulMV M b) (mulMV M c) = M3.det M * box a b c := by
  simp only [box, M3.det, M3.row, M3.cross, M3.dot, mulMV, vec]; ring

/-- All six tetrahedra have the same volume. -/
theorem rawVolume_eq {K : Type} [Field K] (GT B : Mat K) (s v0 : V3 K) (c : Nat × Nat × Nat × Nat) (hc : c ∈ cellVerts) :
    rawVolume GT B s v0 c = M3.det GT * (M3.det B * (s 0 * s 1 * s 2)) := by
  have hd : ∀ j, (fun i => v0 i + dk B s j i - (v0 i + dk B s 0 i)) = mulMV B (vec ((j / 4 % 2 : Nat) * s 0) ((j / 2 % 2 : Nat) * s 1) ((j % 2 : Nat) * s 2)) := by
    intro j; funext i; simp only [dk, mulMV, vec]; simp
  have h0 := (verts_lt c hc).1
  unfold rawVolume
  simp only
  rw [h0, hd, hd, hd, box_mulMV, box_mulMV]
  simp only [cellVerts, List.mem_cons, List.not_mem_nil, or_false] at hc
  congr 2
  rcases hc with rfl | rfl | rfl | rfl | rfl | rfl <;> (simp [box, M3.cross, M3.dot, vec]; try ring1)

end Jdftx.Tetra
