import Verif.Lemmas.WannierFDReach
import Verif.Props.WannierFD

/-! # C101: neighbours used in the finite-difference formula of Wannier calculations -/
namespace Jdftx.WanFD
noncomputable section
open M3

/-- C101: the formula uses whole shells of nearest neighbours. Of the mesh points in the selected directions that are no farther than the longest of those directions, each one that is no
farther than some neighbour in use, up to the threshold, is in use or is the opposite of one in use. -/
theorem C101_nearest {tol : ℝ} {solve : Solver} {K : M3.Mat ℝ} (hd : det K ≠ 0) {mask : Fin 3 → Bool} {b : List (V3 ℝ)} {w : List ℝ} (h : formula tol solve K mask = .ok (b, w))
    {n : V3 Int} (h0 : n ≠ 0) (hm : ∀ i, mask i = false → n i = 0) {j : Fin 3} (hj : mask j = true)
    (hl : Basis.length (mulMV K fun i => (n i : ℝ)) ≤ Basis.length (M3.column K j))
    {u : V3 ℝ} (hu : u ∈ b) (hn : CellMap.lenSq (mulMV K fun i => (n i : ℝ)) ≤ CellMap.lenSq u + tol) :
    (mulMV K fun i => (n i : ℝ)) ∈ b ∨ ∃ v ∈ b, CellMap.lenSq ((mulMV K fun i => (n i : ℝ)) + v) < tol ^ 2 := by
  unfold formula at h
  obtain ⟨hs, hk⟩ := dkMap_spec K mask
  have hsub := dedup_sublist tol (dkMap K mask)
  obtain ⟨l1, l2, h1, h2, h3⟩ := search_gap _ (hs.sublist hsub) _ h
  simp only [List.nil_append] at h2
  rw [h2] at hu
  obtain ⟨e, he, rfl⟩ := List.mem_map.1 hu
  have hek : e.1 = CellMap.lenSq e.2 := by
    obtain ⟨m, _, rfl⟩ := (hk e).1 (hsub.subset (by rw [h1]; exact List.mem_append_left _ he))
    rfl
  have near : ∀ f ∈ dedup tol (dkMap K mask), f.1 ≤ e.1 + tol → f ∈ l1 := by
    intro f hf hfe
    rw [h1] at hf
    rcases List.mem_append.1 hf with hf | hf
    · exact hf
    · exact absurd (h3 e he f hf) (not_lt.2 hfe)
  rw [← hek] at hn
  rcases dedup_mem (tol := tol) _ hs ((hk _).2 ⟨n, mem_offsets hd h0 hm hj hl, rfl⟩) with h4 | ⟨f, hf, hfn, h4⟩
  · left
    rw [h2]
    exact List.mem_map.2 ⟨_, near _ h4 hn, rfl⟩
  · right
    refine ⟨f.2, ?_, h4⟩
    rw [h2]
    exact List.mem_map.2 ⟨_, near _ hf (le_trans hfn hn), rfl⟩

/-- A mesh along one direction has a formula, and the points next to the origin are within reach. -/
example : ∃ b w, formula (1 / 10000) someSolver (fun i j => if i = j then 1 / 2 else 0) (fun j => decide (0 = j)) = .ok (b, w) ∧ b ≠ [] ∧
    (Basis.length (mulMV (fun i j => if i = j then 1 / 2 else 0 : M3.Mat ℝ) fun i => ((vec (-1) 0 0 : V3 Int) i : ℝ)) ≤ Basis.length (M3.column (fun i j => if i = j then 1 / 2 else 0 : M3.Mat ℝ) 0)) := by
  obtain ⟨⟨b, w⟩, h⟩ := formula_single (tol := 1 / 10000) (by norm_num) someSolver_exact (K := fun i j => if i = j then 1 / 2 else 0) (i := 0) (by norm_num)
  refine ⟨b, w, h, ?_, ?_⟩
  · rintro rfl
    have := (formula_ok (by norm_num) h).sound 0 0 rfl rfl
    norm_num [moment] at this
  · apply le_of_eq
    simp [Basis.length, mulMV, M3.column, vec]

end
end Jdftx.WanFD
