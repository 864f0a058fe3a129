import Verif.Lemmas.SoftSphere
import Verif.Props.CavityGrid

/-!
# C79: soft-sphere cavity
-/
namespace Jdftx.Cavity
open Box ExCorr Filter Topology
noncomputable section

/-- **C79 (range).** The shape function lies in (0, 1], and below 1 as soon as there is an atom and a replica. -/
theorem C79_range (sigmaInv : ℝ) (RTR : Fin 3 → Fin 3 → ℝ) (reps : List (Fin 3 → Int)) (atoms : List Atom) (pt : Fin 3 → ℝ) :
    0 < softShape sigmaInv RTR reps atoms pt ∧ softShape sigmaInv RTR reps atoms pt ≤ 1 ∧
    (atoms ≠ [] → reps ≠ [] → softShape sigmaInv RTR reps atoms pt < 1) := by
  rw [softShape_prod]
  have pos : ∀ a : Atom, 0 < (reps.map fun rep => sContrib sigmaInv a.R (dist RTR a.x pt rep)).prod := fun a => prod_pos _ _ fun _ _ => sContrib_pos _ _ _
  have le : ∀ a : Atom, (reps.map fun rep => sContrib sigmaInv a.R (dist RTR a.x pt rep)).prod ≤ 1 := fun a =>
    prod_le_one _ _ (fun _ _ => sContrib_pos _ _ _) fun _ _ => (sContrib_lt_one _ _ _).le
  refine ⟨prod_pos _ _ fun a _ => pos a, prod_le_one _ _ (fun a _ => pos a) fun a _ => le a, ?_⟩
  intro ha hr
  obtain ⟨a, as, rfl⟩ := List.exists_cons_of_ne_nil ha
  obtain ⟨r, rs, rfl⟩ := List.exists_cons_of_ne_nil hr
  have lt : ∀ a : Atom, ((r :: rs).map fun rep => sContrib sigmaInv a.R (dist RTR a.x pt rep)).prod < 1 := by
    intro a
    rw [List.map_cons, List.prod_cons]
    have h1 := sContrib_lt_one sigmaInv a.R (dist RTR a.x pt r)
    have h2 := prod_le_one rs (fun rep => sContrib sigmaInv a.R (dist RTR a.x pt rep)) (fun _ _ => sContrib_pos _ _ _) fun _ _ => (sContrib_lt_one _ _ _).le
    have h3 := prod_pos rs (fun rep => sContrib sigmaInv a.R (dist RTR a.x pt rep)) fun _ _ => sContrib_pos _ _ _
    nlinarith
  rw [List.map_cons, List.prod_cons]
  have h1 := lt a
  have h2 := prod_le_one as _ (fun a _ => pos a) fun a _ => le a
  have h3 := prod_pos as _ fun a _ => pos a
  nlinarith

/-- **C79 (periodic images).** Moving atoms by lattice vectors changes neither the shape function nor the propagated gradients. -/
theorem C79_images (sigmaInv : ℝ) (RTR : Fin 3 → Fin 3 → ℝ) (reps : List (Fin 3 → Int)) (atoms : List Atom) (pt : Fin 3 → ℝ) (T : Atom → Fin 3 → Int) :
    softShape sigmaInv RTR reps (atoms.map fun a => ⟨fun k => a.x k + T a k, a.R⟩) pt = softShape sigmaInv RTR reps atoms pt ∧
    ∀ a ∈ atoms, ∀ s E, softE_x sigmaInv RTR reps ⟨fun k => a.x k + T a k, a.R⟩ pt s E = softE_x sigmaInv RTR reps a pt s E ∧
      softE_R sigmaInv RTR reps ⟨fun k => a.x k + T a k, a.R⟩ pt s E = softE_R sigmaInv RTR reps a pt s E := by
  have e : ∀ (x : Fin 3 → ℝ) (t : Fin 3 → Int) k, dx0 (fun k => x k + t k) pt k = dx0 x pt k := by
    intro x t k
    unfold dx0
    rw [show 0.5 + (x k + t k - pt k) = 0.5 + (x k - pt k) + (t k : ℝ) by ring, Int.floor_add_intCast]
    push_cast; ring
  refine ⟨?_, fun a _ s E => ⟨?_, ?_⟩⟩
  · simp only [softShape_prod, List.map_map, Function.comp_def, dist, e]
  · have h : dx0 (fun k => a.x k + T a k) pt = dx0 a.x pt := funext (e a.x (T a))
    funext k; unfold softE_x dist; rw [h]
  · have h : dx0 (fun k => a.x k + T a k) pt = dx0 a.x pt := funext (e a.x (T a))
    unfold softE_R dist; rw [h]

/-- **C79 (translations).** The cavity moves with the atoms: displacing all atoms and the point by the same vector gives the same value. -/
theorem C79_translations (sigmaInv : ℝ) (RTR : Fin 3 → Fin 3 → ℝ) (reps : List (Fin 3 → Int)) (atoms : List Atom) (pt v : Fin 3 → ℝ) :
    softShape sigmaInv RTR reps (atoms.map fun a => ⟨fun k => a.x k + v k, a.R⟩) (fun k => pt k + v k) = softShape sigmaInv RTR reps atoms pt := by
  have e : ∀ (x : Fin 3 → ℝ) k, dx0 (fun k => x k + v k) (fun k => pt k + v k) k = dx0 x pt k := by
    intro x k
    unfold dx0
    rw [show x k + v k - (pt k + v k) = x k - pt k by ring]
  simp only [softShape_prod, List.map_map, Function.comp_def, dist, e]

/-- **C79 (radii).** Larger radii give a larger cavity: a smaller value of the shape function at every point. -/
theorem C79_radii (sigmaInv : ℝ) (hs : 0 < sigmaInv) (RTR : Fin 3 → Fin 3 → ℝ) (reps : List (Fin 3 → Int)) (atoms : List Atom) (dR : Atom → ℝ)
    (hR : ∀ a ∈ atoms, 0 ≤ dR a) (pt : Fin 3 → ℝ) :
    softShape sigmaInv RTR reps (atoms.map fun a => ⟨a.x, a.R + dR a⟩) pt ≤ softShape sigmaInv RTR reps atoms pt := by
  have mono : ∀ {ι : Type} (l : List ι) (f h : ι → ℝ), (∀ i ∈ l, 0 < f i) → (∀ i ∈ l, f i ≤ h i) → (l.map f).prod ≤ (l.map h).prod := by
    intro ι l f h
    induction l with
    | nil => simp
    | cons a l ih =>
      intro h0 h1
      simp only [List.map_cons, List.prod_cons]
      exact mul_le_mul (h1 a List.mem_cons_self) (ih (fun i hi => h0 i (List.mem_cons_of_mem _ hi)) fun i hi => h1 i (List.mem_cons_of_mem _ hi))
        (prod_pos _ _ fun i hi => h0 i (List.mem_cons_of_mem _ hi)).le ((h0 a List.mem_cons_self).le.trans (h1 a List.mem_cons_self))
  simp only [softShape_prod, List.map_map, Function.comp_def]
  refine mono _ _ _ (fun a _ => prod_pos _ _ fun _ _ => sContrib_pos _ _ _) fun a ha => ?_
  refine mono _ _ _ (fun _ _ => sContrib_pos _ _ _) fun rep _ => ?_
  unfold sContrib
  have h := hR a ha
  have : sigmaInv * (a.R - dist RTR a.x pt rep) ≤ sigmaInv * (a.R + dR a - dist RTR a.x pt rep) := by
    apply mul_le_mul_of_nonneg_left _ hs.le; linarith
  have := erfc_anti.antitone this
  linarith

/-- **C79 (gradients).** For every energy `E` of the shape with functional derivative `E_shape`, and every displacement of the atoms and change
of radii, the rate of change of the energy through the shape function is what the propagated gradients give. Partial: the code drops points where the shape is
below 1e-14 (they must not contribute, `E_shape j = 0`); grid points must not coincide with atoms or lie on the surface of the unit cell around an atom, where the shape has kinks. -/
theorem C79_gradient_partial (g : Grid) (RTR : Fin 3 → Fin 3 → ℝ) (hR : IsMetric RTR) (reps : List (Fin 3 → Int)) (sigma : ℝ) (atoms : List Atom)
    (E : Field → ℝ) (E_shape : Field) (hE : FuncDeriv g E E_shape (softField g RTR reps sigma atoms))
    (hcut : ∀ j < nr g.S, softField g RTR reps sigma atoms j > 1e-14 ∨ E_shape j = 0)
    (hd : ∀ j < nr g.S, ∀ a ∈ atoms, ∀ rep ∈ reps, 1e-14 ≤ dist RTR a.x (point g.S j) rep)
    (hb : ∀ j < nr g.S, ∀ a ∈ atoms, ∀ k (z : Int), 0.5 + (a.x k - point g.S j k) ≠ z)
    (old : Nat → (Fin 3 → ℝ) × ℝ) (dx : Nat → Fin 3 → ℝ) (dR : Nat → ℝ) :
    HasDerivAt (fun t => E (softField g RTR reps sigma (atoms.mapIdx fun i a => ⟨fun k => a.x k + t * dx i k, a.R + t * dR i⟩)))
      (∑ i ∈ Finset.range atoms.length,
        ((∑ k, ((softGrad g RTR reps sigma atoms (softField g RTR reps sigma atoms) E_shape old i).1 k - (old i).1 k) * dx i k)
          + ((softGrad g RTR reps sigma atoms (softField g RTR reps sigma atoms) E_shape old i).2 - (old i).2) * dR i)) 0 := by
  have lin : ∀ a b : ℝ, HasDerivAt (fun t : ℝ => a + t * b) b 0 := by
    intro a b
    simpa using ((hasDerivAt_id (0 : ℝ)).mul_const b).const_add a
  set c : ℝ → Field := fun t => softField g RTR reps sigma (atoms.mapIdx fun i a => ⟨fun k => a.x k + t * dx i k, a.R + t * dR i⟩) with hc
  have c0 : c 0 = softField g RTR reps sigma atoms := by
    have : (atoms.mapIdx fun i (a : Atom) => (⟨fun k => a.x k + 0 * dx i k, a.R + 0 * dR i⟩ : Atom)) = atoms := by
      simp only [zero_mul, add_zero]
      exact List.mapIdx_eq_iff.2 fun i => by simp
    simp only [hc, this]
  set slope : Nat → Atom → Nat → ℝ := fun j a i => (reps.map fun rep => ((1 / sigma / Real.sqrt Real.pi) * Real.exp (-(1 / sigma * (a.R - dist RTR a.x (point g.S j) rep)) * (1 / sigma * (a.R - dist RTR a.x (point g.S j) rep)))
        * ((∑ k, (RTR k 0 * (dx0 a.x (point g.S j) 0 + rep 0) + RTR k 1 * (dx0 a.x (point g.S j) 1 + rep 1) + RTR k 2 * (dx0 a.x (point g.S j) 2 + rep 2)) * dx i k) / dist RTR a.x (point g.S j) rep - dR i))
        / sContrib (1 / sigma) a.R (dist RTR a.x (point g.S j) rep)).sum with hslope
  -- derivative of the shape at one point
  have hpt : ∀ j < nr g.S, HasDerivAt (fun t => c t j) (softField g RTR reps sigma atoms j * ((atoms.zipIdx 0).map fun p => slope j p.1 p.2).sum) 0 := by
    intro j hj
    have hf : ∀ p ∈ atoms.zipIdx 0, HasDerivAt (fun t => (reps.map fun rep => sContrib (1 / sigma) (p.1.R + t * dR p.2)
        (dist RTR (fun k => p.1.x k + t * dx p.2 k) (point g.S j) rep)).prod)
        ((reps.map fun rep => sContrib (1 / sigma) p.1.R (dist RTR p.1.x (point g.S j) rep)).prod * slope j p.1 p.2) 0 := by
      intro p hp
      have ha : p.1 ∈ atoms := (List.fst_mem_of_mem_zipIdx hp)
      have h := prod_deriv reps (fun rep t => sContrib (1 / sigma) (p.1.R + t * dR p.2) (dist RTR (fun k => p.1.x k + t * dx p.2 k) (point g.S j) rep)) _ 0
        (fun rep hrep => sContrib_deriv (1 / sigma) _ _ _ _ 0 (lin p.1.R (dR p.2)) (dist_deriv RTR hR (fun t k => p.1.x k + t * dx p.2 k) (dx p.2) (point g.S j) rep 0
          (fun k => lin _ _) (by simpa using hb j hj p.1 ha) (by
            have := hd j hj p.1 ha rep hrep
            simp only [zero_mul, add_zero]
            intro h0; rw [h0] at this; norm_num at this)))
        (fun rep _ => (sContrib_pos _ _ _).ne')
      simpa only [zero_mul, add_zero] using h
    have h := prod_deriv (atoms.zipIdx 0) (fun p t => (reps.map fun rep => sContrib (1 / sigma) (p.1.R + t * dR p.2)
        (dist RTR (fun k => p.1.x k + t * dx p.2 k) (point g.S j) rep)).prod) _ 0 hf
        (fun p _ => (prod_pos _ _ fun _ _ => sContrib_pos _ _ _).ne')
    have e1 : (fun t => c t j) = fun t => ((atoms.zipIdx 0).map fun p => (reps.map fun rep => sContrib (1 / sigma) (p.1.R + t * dR p.2)
        (dist RTR (fun k => p.1.x k + t * dx p.2 k) (point g.S j) rep)).prod).prod := by
      funext t
      simp only [hc, softField, softShape_prod, List.mapIdx_eq_zipIdx_map, List.map_map, Function.comp_def]
    rw [e1]
    refine h.congr_deriv ?_
    simp only [zero_mul, add_zero]
    have e2 : ((atoms.zipIdx 0).map fun p => (reps.map fun rep => sContrib (1 / sigma) p.1.R (dist RTR p.1.x (point g.S j) rep)).prod).prod
        = softField g RTR reps sigma atoms j := by
      have := congrFun e1 0
      simp only [zero_mul, add_zero] at this
      rw [← this, c0]
    rw [e2]
    congr 2
    refine List.map_congr_left fun p _ => ?_
    have := (prod_pos reps _ fun rep _ => sContrib_pos (1 / sigma) p.1.R (dist RTR p.1.x (point g.S j) rep)).ne'
    field_simp
  have h1 := hE c _ c0 hpt
  refine h1.congr_deriv ?_
  -- both sides as sums over atoms and points
  have e3 : ∀ j < nr g.S, E_shape j * (softField g RTR reps sigma atoms j * ((atoms.zipIdx 0).map fun p => slope j p.1 p.2).sum)
      = ∑ i ∈ Finset.range atoms.length, (match atoms[i]? with
        | none => 0
        | some a => dot3 (softE_x (1 / sigma) RTR reps a (point g.S j) (softField g RTR reps sigma atoms j) (E_shape j)) (dx i)
          + softE_R (1 / sigma) RTR reps a (point g.S j) (softField g RTR reps sigma atoms j) (E_shape j) * dR i) := by
    intro j hj
    rw [← mul_assoc, sum_zipIdx atoms (fun a i => slope j a i) 0 (fun i => match atoms[i]? with | none => 0 | some a => slope j a i)
      (by intro i a ha; simp only [ha, zero_add]), Finset.mul_sum]
    refine Finset.sum_congr rfl fun i hi => ?_
    cases ha : atoms[i]? with
    | none => simp
    | some a =>
      have ham : a ∈ atoms := List.mem_of_getElem? ha
      simp only
      rcases hcut j hj with hs | h0
      · rw [soft_one (1 / sigma) RTR reps a (point g.S j) _ _ (dx i) (dR i) hs fun rep hrep => not_lt.2 (hd j hj a ham rep hrep)]
        ring
      · rw [h0]
        have z : softE_R (1 / sigma) RTR reps a (point g.S j) (softField g RTR reps sigma atoms j) 0 = 0 := by
          unfold softE_R E_dr
          split
          · simp only [sub_eq_add_neg]
            rw [foldl_skip _ _ _ _ fun rep hrep => not_lt.2 (hd j hj a ham rep hrep)]; simp
          · rfl
        have z2 : ∀ k, softE_x (1 / sigma) RTR reps a (point g.S j) (softField g RTR reps sigma atoms j) 0 k = 0 := by
          intro k
          unfold softE_x E_dr
          split
          · rw [foldl_skip _ _ _ _ fun rep hrep => not_lt.2 (hd j hj a ham rep hrep)]; simp
          · rfl
        simp only [dot3, z, z2, zero_mul, add_zero]
  rw [Finset.sum_congr rfl fun j hj => e3 j (Finset.mem_range.1 hj), Finset.sum_comm, Finset.mul_sum]
  refine Finset.sum_congr rfl fun i hi => ?_
  obtain ⟨a, ha⟩ : ∃ a, atoms[i]? = some a := ⟨atoms[i]'(Finset.mem_range.1 hi), List.getElem?_eq_getElem _⟩
  simp only [softGrad, ha, add_sub_cancel_left, dot3, Fin.sum_univ_three, Finset.sum_add_distrib, ← Finset.sum_mul]
  ring

/-- One atom with two replicas at a generic position meets the hypotheses. -/
example : ∃ (g : Grid) (RTR : Fin 3 → Fin 3 → ℝ) (atoms : List Atom) (reps : List (Fin 3 → Int)), IsMetric RTR ∧ GridOK g ∧ atoms.length = 1 ∧ reps.length = 2 ∧
    (∀ j < nr g.S, ∀ a ∈ atoms, ∀ rep ∈ reps, 1e-14 ≤ dist RTR a.x (point g.S j) rep) ∧
    ∀ j < nr g.S, ∀ a ∈ atoms, ∀ k (z : Int), 0.5 + (a.x k - point g.S j k) ≠ z := by
  refine ⟨⟨⟨1, 1, 2⟩, fun i j => if i = j then 1 else 0, 2, 1⟩, fun i j => if i = j then 1 else 0, [⟨fun _ => 0.125, 1⟩], [fun _ => 0, fun _ => 1],
    ⟨fun i j => if i = j then 1 else 0, fun i j => by fin_cases i <;> fin_cases j <;> simp⟩, ⟨⟨by norm_num, by norm_num, by norm_num⟩, by norm_num [nr]⟩, rfl, rfl, ?_, ?_⟩
  all_goals
    intro j hj a ha
    have hj : j < 2 := hj
    have : a = ⟨fun _ => 0.125, 1⟩ := by simpa using ha
    subst this
  · intro rep hrep
    have px : ∀ j, point ⟨1, 1, 2⟩ j 0 = (rStart ⟨1, 1, 2⟩ j).x := by intro j; simp [point]
    have f : dx0 (fun _ => 0.125) (point ⟨1, 1, 2⟩ j) 0 = 0.125 := by
      unfold dx0
      rw [px]
      simp only [rStart]
      have h0 : j / (2 * 1) = 0 := by omega
      rw [h0]; norm_num
    have hn : ∀ v : Fin 3 → ℝ, metric (fun i j => if i = j then 1 else 0) v = v 0 ^ 2 + v 1 ^ 2 + v 2 ^ 2 := by
      intro v; simp [metric]; ring
    unfold dist
    apply Real.le_sqrt_of_sq_le
    rw [hn]
    have hrep : rep 0 = 0 ∨ rep 0 = 1 := by
      rcases List.mem_cons.1 hrep with h | h
      · left; rw [h]
      · right; rw [List.mem_singleton.1 h]
    rw [f]
    rcases hrep with h | h <;> rw [h] <;> norm_num <;> nlinarith [sq_nonneg (dx0 (fun _ => 0.125) (point ⟨1, 1, 2⟩ j) 1 + rep 1), sq_nonneg (dx0 (fun _ => 0.125) (point ⟨1, 1, 2⟩ j) 2 + rep 2)]
  · intro k z h
    have hp : ∃ m : Int, point ⟨1, 1, 2⟩ j k * 2 = m := by
      refine ⟨match k with | 0 => 2 * (rStart ⟨1, 1, 2⟩ j).x | 1 => 2 * (rStart ⟨1, 1, 2⟩ j).y | 2 => (rStart ⟨1, 1, 2⟩ j).z, ?_⟩
      match k with
      | 0 => simp [point]; ring
      | 1 => simp [point]; ring
      | 2 => simp [point]
    obtain ⟨m, hm⟩ := hp
    have : (5 : ℝ) = 8 * z + 4 * m := by rw [← hm, ← h]; norm_num; ring
    have : (5 : Int) = 8 * z + 4 * m := by exact_mod_cast this
    omega

end
end Jdftx.Cavity
