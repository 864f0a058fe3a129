import Verif.Lemmas.Moment
import Verif.Props.WignerSeitz
import Mathlib.Tactic.NormNum
/-!
# C116: the dipole moments of the file are those of the charges around the centre

`meshSum`, `atomSum`, `Holds`, `Repeats` and `charge` are in `Spec/Moment.lean`.
-/
namespace Jdftx.Moment
open Jdftx.M3 Jdftx.WS

/-- `red` is what the reduction to the Wigner-Seitz cell returns. -/
def IsReduce (tol : ℝ) (faces : List Face) (red : V3 ℝ → V3 ℝ) : Prop :=
  ∀ x, ∃ N, ∀ fuel, N ≤ fuel → reduce tol faces fuel x = .ok (red x)

/-- For every cell, mesh, density, centre and all species, the lines of the file are sums over mesh points and atoms, in the
truncated directions, of the charge times a position. That position is equivalent to the one of the mesh point or atom, is
not farther from the centre, and is in the Wigner-Seitz cell around the centre. The total is the sum of both. -/
theorem C116_lines (R : Mat ℝ) (hR : det R ≠ 0) (tol : ℝ) (htol : 0 < tol) (faces : List Face)
    (hf : ∀ f ∈ faces, Made R f) (red : V3 ℝ → V3 ℝ) (hr : IsReduce tol faces red) (x0 : V3 ℝ) (S : Fin 3 → ℕ)
    (data : ℕ → ℝ) (rho : V3 Int → ℝ) (h : Holds S data rho) (dV : ℝ) (species : List (ℝ × List (V3 ℝ)))
    (trunc : Fin 3 → Bool) :
    ∃ pos : V3 ℝ → V3 ℝ,
      (∀ p, Equivalent p (pos p) ∧ lenSq R (fun d => pos p d - x0 d) ≤ lenSq R (fun d => p d - x0 d) ∧
        ∀ f ∈ faces, Inside R tol (fun d => pos p d - x0 d) f.img) ∧
      (∀ c, (dumpMoment red R x0 S data dV species trunc).electronic c =
        ∑ d, if trunc d then R c d * (dV * meshSum S fun iv => rho iv * pos (fun d => (iv d : ℝ) / S d) d) else 0) ∧
      (∀ c, (dumpMoment red R x0 S data dV species trunc).ionic c =
        ∑ d, if trunc d then R c d * -(atomSum species fun p => pos p d) else 0) ∧
      ∀ c, (dumpMoment red R x0 S data dV species trunc).total c =
        (dumpMoment red R x0 S data dV species trunc).electronic c + (dumpMoment red R x0 S data dV species trunc).ionic c := by
  refine ⟨wrap red x0, ?_, ?_, ?_, fun _ => rfl⟩
  · intro p
    obtain ⟨N, hN⟩ := hr fun d => p d - x0 d
    obtain ⟨N', y, h1, ⟨n, h2⟩, h3, h4⟩ := C28_reduce R hR tol htol faces hf fun d => p d - x0 d
    have hy : red (fun d => p d - x0 d) = y := by
      have e1 := hN (max N N') (le_max_left _ _)
      rw [h1 (max N N') (le_max_right _ _)] at e1
      injection e1 with e; exact e.symm
    have e : (fun d => wrap red x0 p d - x0 d) = y := by
      funext d; simp [wrap, hy]
    rw [e]
    refine ⟨⟨n, fun d => ?_⟩, h3, h4⟩
    simp only [wrap, hy, h2]; ring
  · intro c
    have e : ∀ d, elecMoment red x0 S data dV d =
        dV * meshSum S fun iv => rho iv * wrap red x0 (fun d => (iv d : ℝ) / S d) d := by
      intro d
      rw [elec_eq red x0 S data dV rho h d, mul_comm]
      congr 2; funext iv; rw [mul_comm]; rfl
    simp only [dumpMoment, mulMV, dropPeriodic, Fin.sum_univ_three, e]
    cases trunc 0 <;> cases trunc 1 <;> cases trunc 2 <;> simp
  · intro c
    simp only [dumpMoment, mulMV, dropPeriodic, Fin.sum_univ_three, ion_eq]
    cases trunc 0 <;> cases trunc 1 <;> cases trunc 2 <;> simp

/-- Reduction always ends, so such a function exists. -/
theorem C116_reduce_exists (R : Mat ℝ) (hR : det R ≠ 0) (tol : ℝ) (htol : 0 < tol) (faces : List Face)
    (hf : ∀ f ∈ faces, Made R f) : ∃ red, IsReduce tol faces red := by
  have : ∀ x, ∃ y, ∃ N, ∀ fuel, N ≤ fuel → reduce tol faces fuel x = .ok y := by
    intro x
    obtain ⟨N, y, h, _⟩ := C28_reduce R hR tol htol faces hf x
    exact ⟨y, N, h⟩
  exact ⟨fun x => (this x).choose, fun x => (this x).choose_spec⟩

/-- A point that is in the cell, while each of its other images is outside of some face, is what all its images are reduced
to. So the condition `hb` of `C116_translate` holds for electrons that are not on the boundary. -/
theorem C116_interior (R : Mat ℝ) (hR : det R ≠ 0) (tol : ℝ) (htol : 0 < tol) (faces : List Face)
    (hf : ∀ f ∈ faces, Made R f) (red : V3 ℝ → V3 ℝ) (hr : IsReduce tol faces red) (z : V3 ℝ)
    (hz : ∀ n : V3 Int, n ≠ 0 → ∃ f ∈ faces, ¬ Inside R tol (fun d => z d + n d) f.img) (n : V3 Int) :
    red (fun d => z d + n d) = z := by
  obtain ⟨N, hN⟩ := hr fun d => z d + n d
  obtain ⟨N', y, h1, ⟨m, h2⟩, _, h4⟩ := C28_reduce R hR tol htol faces hf fun d => z d + n d
  have hy : red (fun d => z d + n d) = y := by
    have e1 := hN (max N N') (le_max_left _ _)
    rw [h1 (max N N') (le_max_right _ _)] at e1
    injection e1 with e; exact e.symm
  have e : y = fun d => z d + ((n d + m d : ℤ) : ℝ) := by
    funext d; rw [h2]; push_cast; ring
  rw [hy]
  by_cases h0 : (fun d => n d + m d) = 0
  · rw [e]
    funext d
    have := congrFun h0 d
    simp only [Pi.zero_apply] at this
    rw [this]; simp
  · obtain ⟨f, hf1, hf2⟩ := hz _ h0
    rw [e] at h4
    exact absurd (h4 f hf1) hf2

/-- Moving everything by a multiple `s` of the mesh, the density, the atoms and the centre, changes the total moment by the
charge times the displacement, in the truncated directions. `hb` says that no electrons are on the boundary of the cell
around the centre. -/
theorem C116_translate (red : V3 ℝ → V3 ℝ) (R : Mat ℝ) (x0 : V3 ℝ) (S : Fin 3 → ℕ) (hS : ∀ d, 0 < S d) (data data' : ℕ → ℝ)
    (rho : V3 Int → ℝ) (hrho : Repeats S rho) (s : V3 Int) (h : Holds S data rho)
    (h' : Holds S data' fun iv => rho fun d => iv d - s d) (dV : ℝ) (species : List (ℝ × List (V3 ℝ))) (trunc : Fin 3 → Bool)
    (hb : ∀ iv n : V3 Int, rho iv ≠ 0 →
      red (fun d => (iv d : ℝ) / S d - x0 d + n d) = red fun d => (iv d : ℝ) / S d - x0 d) (c : Fin 3) :
    (dumpMoment red R (fun d => x0 d + (s d : ℝ) / S d) S data' dV
      (species.map fun sp => (sp.1, sp.2.map fun p d => p d + (s d : ℝ) / S d)) trunc).total c =
    (dumpMoment red R x0 S data dV species trunc).total c +
      charge S dV rho species * ∑ d, if trunc d then R c d * ((s d : ℝ) / S d) else 0 := by
  have hel : ∀ d, elecMoment red (fun d => x0 d + (s d : ℝ) / S d) S data' dV d =
      elecMoment red x0 S data dV d + (s d : ℝ) / S d * (meshSum S rho * dV) := by
    intro d
    rw [elec_eq _ _ _ _ _ _ h', elec_eq _ _ _ _ _ _ h]
    set H : V3 Int → ℝ := fun iv => wrap red x0 (meshPos S iv) d * rho iv + (s d : ℝ) / S d * rho iv with hH
    have hper : Repeats S H := by
      intro n iv
      simp only [hH]
      rw [hrho n iv]
      by_cases h0 : rho iv = 0
      · rw [h0]; ring
      · congr 2
        unfold wrap
        congr 1
        show _ = red (fun d => (iv d : ℝ) / S d - x0 d) d
        rw [← hb iv n h0]
        congr 1
        funext e
        have : (S e : ℝ) ≠ 0 := by exact_mod_cast (hS e).ne'
        simp only [meshPos]; push_cast; field_simp; ring
    have e1 : (fun iv : V3 Int => wrap red (fun d => x0 d + (s d : ℝ) / S d) (meshPos S iv) d * rho fun d => iv d - s d) =
        fun iv => H fun d => iv d + (fun d => -s d) d := by
      funext iv
      simp only [hH, wrap, ← sub_eq_add_neg]
      have : (fun e => meshPos S iv e - (x0 e + (s e : ℝ) / S e)) = fun e => meshPos S (fun d => iv d - s d) e - x0 e := by
        funext e; simp only [meshPos]; push_cast; ring
      rw [this]; ring
    rw [e1, meshSum_shift S H hper, hH, meshSum_add, meshSum_smul]; ring
  have hio : ∀ d, ionMoment red (fun d => x0 d + (s d : ℝ) / S d)
      (species.map fun sp => (sp.1, sp.2.map fun p d => p d + (s d : ℝ) / S d)) d =
      ionMoment red x0 species d - (s d : ℝ) / S d * atomSum species fun _ => 1 := by
    intro d
    rw [ion_eq, ion_eq]
    have e1 : atomSum (species.map fun sp => (sp.1, sp.2.map fun p d => p d + (s d : ℝ) / S d))
        (fun p => wrap red (fun d => x0 d + (s d : ℝ) / S d) p d) =
        atomSum species fun p => wrap red x0 p d + (s d : ℝ) / S d * 1 := by
      unfold atomSum
      rw [List.map_map]
      congr 1
      refine List.map_congr_left fun sp _ => ?_
      simp only [Function.comp, List.map_map]
      congr 2
      refine List.map_congr_left fun p _ => ?_
      simp only [Function.comp, wrap]
      have : (fun e => p e + (s e : ℝ) / S e - (x0 e + (s e : ℝ) / S e)) = fun e => p e - x0 e := by
        funext e; ring
      rw [this]; ring
    rw [e1, atomSum_add, atomSum_smul]; ring
  simp only [dumpMoment, mulMV, dropPeriodic, Fin.sum_univ_three, hel, hio, charge]
  cases trunc 0 <;> cases trunc 1 <;> cases trunc 2 <;> simp <;> ring

/-- The total moment of a neutral system does not change when everything is moved. -/
theorem C116_neutral (red : V3 ℝ → V3 ℝ) (R : Mat ℝ) (x0 : V3 ℝ) (S : Fin 3 → ℕ) (hS : ∀ d, 0 < S d) (data data' : ℕ → ℝ)
    (rho : V3 Int → ℝ) (hrho : Repeats S rho) (s : V3 Int) (h : Holds S data rho)
    (h' : Holds S data' fun iv => rho fun d => iv d - s d) (dV : ℝ) (species : List (ℝ × List (V3 ℝ))) (trunc : Fin 3 → Bool)
    (hb : ∀ iv n : V3 Int, rho iv ≠ 0 →
      red (fun d => (iv d : ℝ) / S d - x0 d + n d) = red fun d => (iv d : ℝ) / S d - x0 d)
    (hn : charge S dV rho species = 0) (c : Fin 3) :
    (dumpMoment red R (fun d => x0 d + (s d : ℝ) / S d) S data' dV
      (species.map fun sp => (sp.1, sp.2.map fun p d => p d + (s d : ℝ) / S d)) trunc).total c =
    (dumpMoment red R x0 S data dV species trunc).total c := by
  rw [C116_translate red R x0 S hS data data' rho hrho s h h' dV species trunc hb c, hn]; ring

/-- Without truncated directions all moments are zero. -/
theorem C116_periodic (red : V3 ℝ → V3 ℝ) (R : Mat ℝ) (x0 : V3 ℝ) (S : Fin 3 → ℕ) (data : ℕ → ℝ) (dV : ℝ)
    (species : List (ℝ × List (V3 ℝ))) (c : Fin 3) :
    (dumpMoment red R x0 S data dV species fun _ => false).electronic c = 0 ∧
    (dumpMoment red R x0 S data dV species fun _ => false).ionic c = 0 ∧
    (dumpMoment red R x0 S data dV species fun _ => false).total c = 0 := by
  simp [dumpMoment, mulMV, dropPeriodic]

/-! ## Examples -/

/-- A cubic cell with its faces along the axes. -/
noncomputable def exR : Mat ℝ := diag 1 1 1

noncomputable def exFaces : List Face := [initFace exR 0 false, initFace exR 1 false, initFace exR 2 false]

theorem ex_made : ∀ f ∈ exFaces, Made exR f := by
  intro f hf
  simp only [exFaces, List.mem_cons, List.not_mem_nil, or_false] at hf
  rcases hf with rfl | rfl | rfl
  · exact .inl ⟨0, false, rfl⟩
  · exact .inl ⟨1, false, rfl⟩
  · exact .inl ⟨2, false, rfl⟩

theorem ex_det : det exR ≠ 0 := by
  simp [det, exR, diag, vec, box, dot, cross, row]

/-- Other images of the centre are outside. -/
theorem ex_outside (n : V3 Int) (hn : n ≠ 0) :
    ∃ f ∈ exFaces, ¬ Inside exR (1 / 10) (fun d => (0 : ℝ) + n d) f.img := by
  have key : ∀ m : ℤ, m ≠ 0 → 2 * (1 / 10 : ℝ) < 2 * |(m : ℝ)| - 1 := by
    intro m hm
    have : (1 : ℝ) ≤ |(m : ℝ)| := by exact_mod_cast Int.one_le_abs hm
    linarith
  have : ∃ d, n d ≠ 0 := by
    by_contra h
    push Not at h
    exact hn (funext h)
  obtain ⟨d, hd⟩ := this
  refine ⟨initFace exR d false, ?_, ?_⟩
  · fin_cases d <;> simp [exFaces]
  · rintro ⟨h1, h2⟩
    have hk := key _ hd
    rcases abs_cases (n d : ℝ) with ⟨ha, _⟩ | ⟨ha, _⟩ <;> rw [ha] at hk <;>
    fin_cases d <;>
    simp [lenSq, dot, mulMV, exR, diag, vec, initFace] at h1 h2 hk <;> nlinarith

/-- A density at the corners of the cell only, which is the centre: the conditions of `C116_lines`, `C116_interior` and
`C116_translate` hold, with any positive number of mesh points. -/
noncomputable def exRho (S : Fin 3 → ℕ) : V3 Int → ℝ := fun iv => open Classical in if ∀ d, (S d : ℤ) ∣ iv d then 8 else 0

example (S : Fin 3 → ℕ) : Repeats S (exRho S) := by
  intro n iv
  unfold exRho
  simp only [Int.dvd_add_left (Dvd.intro_left _ rfl)]

example (S : Fin 3 → ℕ) (hS : ∀ d, 0 < S d) : ∃ red, IsReduce (1 / 10) exFaces red ∧
    ∀ iv n : V3 Int, exRho S iv ≠ 0 →
      red (fun d => (iv d : ℝ) / S d - (0 : ℝ) + n d) = red fun d => (iv d : ℝ) / S d - (0 : ℝ) := by
  obtain ⟨red, hr⟩ := C116_reduce_exists exR ex_det (1 / 10) (by norm_num) exFaces ex_made
  refine ⟨red, hr, ?_⟩
  intro iv n h
  have hd : ∀ d, (S d : ℤ) ∣ iv d := by
    by_contra hc
    exact h (by simp only [exRho]; rw [if_neg hc])
  choose m hm using hd
  have hx : ∀ d, (iv d : ℝ) / S d = m d := by
    intro d
    have : (S d : ℝ) ≠ 0 := by exact_mod_cast (hS d).ne'
    rw [hm d]; push_cast; field_simp
  have key := C116_interior exR ex_det (1 / 10) (by norm_num) exFaces ex_made red hr (fun _ => 0) ex_outside
  have k1 := key fun d => m d + n d
  have k2 := key m
  simp only [zero_add] at k1 k2
  simp only [hx, sub_zero]
  rw [k2, ← k1]
  congr 1; funext d; push_cast; ring

/-- With two mesh points per direction and an ion of charge 8 it is neutral; the data are 8 at the first point. -/
example : charge (fun _ => 2) 1 (exRho fun _ => 2) [(8, [fun _ => 0])] = 0 ∧
    Holds (fun _ => 2) (fun t => if t = 0 then 8 else 0) (exRho fun _ => 2) := by
  have v : ∀ i j k : ℕ, i < 2 → j < 2 → k < 2 → exRho (fun _ => 2) (vec (i : Int) j k) = if (i * 2 + j) * 2 + k = 0 then 8 else 0 := by
    intro i j k hi hj hk
    unfold exRho
    refine if_congr ⟨fun h => ?_, fun h d => ?_⟩ rfl rfl
    · have h0 := h 0; have h1 := h 1; have h2 := h 2
      simp only [vec] at h0 h1 h2
      omega
    · have : i = 0 ∧ j = 0 ∧ k = 0 := by omega
      obtain ⟨rfl, rfl, rfl⟩ := this
      fin_cases d <;> simp [vec]
  constructor
  · have e : meshSum (fun _ => 2) (exRho fun _ => 2) = 8 := by
      unfold meshSum
      rw [Finset.sum_congr rfl fun i hi => Finset.sum_congr rfl fun j hj => Finset.sum_congr rfl fun k hk =>
        v i j k (Finset.mem_range.mp hi) (Finset.mem_range.mp hj) (Finset.mem_range.mp hk)]
      simp [Finset.sum_range_succ]
    simp [charge, e, atomSum]
  · intro i hi j hj k hk
    exact (v i j k hi hj hk).symm

end Jdftx.Moment
