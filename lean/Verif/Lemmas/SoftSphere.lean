import Verif.Model.SoftSphere
import Verif.Lemmas.CavityGrid

/-!
# Lemmas about the soft-sphere cavity
-/
namespace Jdftx.Cavity
open Box ExCorr Filter Topology
noncomputable section

/-! ### Products along lists -/

theorem foldl_mul {ι : Type} (l : List ι) (f : ι → ℝ) (s : ℝ) : l.foldl (fun s i => s * f i) s = s * (l.map f).prod := by
  induction l generalizing s with
  | nil => simp
  | cons a l ih => simp only [List.foldl_cons, ih, List.map_cons, List.prod_cons]; ring

theorem softShape_prod (sigmaInv : ℝ) (RTR : Fin 3 → Fin 3 → ℝ) (reps : List (Fin 3 → Int)) (atoms : List Atom) (pt : Fin 3 → ℝ) :
    softShape sigmaInv RTR reps atoms pt = (atoms.map fun a => (reps.map fun rep => sContrib sigmaInv a.R (dist RTR a.x pt rep)).prod).prod := by
  unfold softShape
  simp only [foldl_mul, one_mul]

theorem prod_deriv {ι : Type} (l : List ι) (f : ι → ℝ → ℝ) (f' : ι → ℝ) (t : ℝ) (h : ∀ i ∈ l, HasDerivAt (f i) (f' i) t)
    (h0 : ∀ i ∈ l, f i t ≠ 0) :
    HasDerivAt (fun t => (l.map fun i => f i t).prod) ((l.map fun i => f i t).prod * (l.map fun i => f' i / f i t).sum) t := by
  induction l with
  | nil => simpa using hasDerivAt_const t (1 : ℝ)
  | cons a l ih =>
    have ih := ih (fun i hi => h i (List.mem_cons_of_mem _ hi)) (fun i hi => h0 i (List.mem_cons_of_mem _ hi))
    have ha := h a List.mem_cons_self
    have ha0 := h0 a List.mem_cons_self
    simp only [List.map_cons, List.prod_cons, List.sum_cons]
    refine (ha.mul ih).congr_deriv ?_
    field_simp

theorem prod_pos {ι : Type} (l : List ι) (f : ι → ℝ) (h : ∀ i ∈ l, 0 < f i) : 0 < (l.map f).prod := by
  induction l with
  | nil => simp
  | cons a l ih =>
    simp only [List.map_cons, List.prod_cons]
    exact mul_pos (h a List.mem_cons_self) (ih fun i hi => h i (List.mem_cons_of_mem _ hi))

theorem prod_le_one {ι : Type} (l : List ι) (f : ι → ℝ) (h0 : ∀ i ∈ l, 0 < f i) (h : ∀ i ∈ l, f i ≤ 1) : (l.map f).prod ≤ 1 := by
  induction l with
  | nil => simp
  | cons a l ih =>
    simp only [List.map_cons, List.prod_cons]
    have h1 := ih (fun i hi => h0 i (List.mem_cons_of_mem _ hi)) fun i hi => h i (List.mem_cons_of_mem _ hi)
    exact mul_le_one₀ (h a List.mem_cons_self) (prod_pos l f fun i hi => h0 i (List.mem_cons_of_mem _ hi)).le h1

theorem sum_zipIdx {α : Type} (l : List α) (f : α → Nat → ℝ) (k : Nat) (d : Nat → ℝ) (hd : ∀ i, (∀ a, l[i]? = some a → d i = f a (k + i))) :
    ((l.zipIdx k).map fun p => f p.1 p.2).sum = ∑ i ∈ Finset.range l.length, d i := by
  induction l generalizing k d with
  | nil => simp
  | cons a l ih =>
    rw [List.zipIdx_cons, List.map_cons, List.sum_cons, List.length_cons, Finset.sum_range_succ']
    rw [ih (k + 1) (fun i => d (i + 1)) (fun i b hb => by rw [hd (i + 1) b (by simpa using hb)]; congr 1; ring)]
    rw [hd 0 a (by simp)]; simp; ring

/-! ### One factor -/

theorem sContrib_pos (sigmaInv R dr : ℝ) : 0 < sContrib sigmaInv R dr := by
  unfold sContrib; have := erfc_pos (sigmaInv * (R - dr)); linarith

theorem sContrib_lt_one (sigmaInv R dr : ℝ) : sContrib sigmaInv R dr < 1 := by
  unfold sContrib; have := erfc_lt_two (sigmaInv * (R - dr)); linarith

/-- The metric comes from a lattice. -/
def IsMetric (RTR : Fin 3 → Fin 3 → ℝ) : Prop := ∃ L : Fin 3 → Fin 3 → ℝ, ∀ i j, RTR i j = L 0 i * L 0 j + L 1 i * L 1 j + L 2 i * L 2 j

theorem metric_nonneg (RTR : Fin 3 → Fin 3 → ℝ) (h : IsMetric RTR) (v : Fin 3 → ℝ) : 0 ≤ metric RTR v := by
  obtain ⟨L, hL⟩ := h
  have : metric RTR v = (L 0 0 * v 0 + L 0 1 * v 1 + L 0 2 * v 2) ^ 2 + (L 1 0 * v 0 + L 1 1 * v 1 + L 1 2 * v 2) ^ 2
      + (L 2 0 * v 0 + L 2 1 * v 1 + L 2 2 * v 2) ^ 2 := by
    unfold metric; simp only [hL]; ring
  rw [this]; positivity

/-- Away from the wrapping boundary the wrapped displacement follows the atom. -/
theorem dx0_deriv (x : ℝ → Fin 3 → ℝ) (x' pt : Fin 3 → ℝ) (t : ℝ) (k : Fin 3) (hx : HasDerivAt (fun t => x t k) (x' k) t)
    (hb : ∀ z : Int, 0.5 + (x t k - pt k) ≠ z) : HasDerivAt (fun t => dx0 (x t) pt k) (x' k) t := by
  have hfl : (fun s => dx0 (x s) pt k) =ᶠ[𝓝 t] fun s => (x s k - pt k) - ⌊0.5 + (x t k - pt k)⌋ := by
    have hc : ContinuousAt (fun s => 0.5 + (x s k - pt k)) t := (hx.continuousAt.sub continuousAt_const).const_add _
    set z := ⌊0.5 + (x t k - pt k)⌋ with hz
    have h1 : (z : ℝ) < 0.5 + (x t k - pt k) := lt_of_le_of_ne (Int.floor_le _) (hb z).symm
    have h2 : 0.5 + (x t k - pt k) < z + 1 := Int.lt_floor_add_one _
    filter_upwards [hc.eventually (isOpen_Ioo.mem_nhds ⟨h1, h2⟩)] with s hs
    have hs : (z : ℝ) < 0.5 + (x s k - pt k) ∧ 0.5 + (x s k - pt k) < z + 1 := hs
    unfold dx0
    rw [Int.floor_eq_iff.2 ⟨hs.1.le, hs.2⟩]
  exact ((hx.sub_const (pt k)).sub_const _).congr_of_eventuallyEq hfl

theorem dist_deriv (RTR : Fin 3 → Fin 3 → ℝ) (hR : IsMetric RTR) (x : ℝ → Fin 3 → ℝ) (x' pt : Fin 3 → ℝ) (rep : Fin 3 → Int) (t : ℝ)
    (hx : ∀ k, HasDerivAt (fun t => x t k) (x' k) t) (hb : ∀ k (z : Int), 0.5 + (x t k - pt k) ≠ z) (hd : dist RTR (x t) pt rep ≠ 0) :
    HasDerivAt (fun t => dist RTR (x t) pt rep)
      ((∑ k, (RTR k 0 * (dx0 (x t) pt 0 + rep 0) + RTR k 1 * (dx0 (x t) pt 1 + rep 1) + RTR k 2 * (dx0 (x t) pt 2 + rep 2)) * x' k) / dist RTR (x t) pt rep) t := by
  have hv : ∀ k, HasDerivAt (fun t => dx0 (x t) pt k + rep k) (x' k) t := fun k => (dx0_deriv x x' pt t k (hx k) (hb k)).add_const _
  have hm := (((((hv 0).mul (hv 0)).mul_const (RTR 0 0)).add (((hv 1).mul (hv 1)).mul_const (RTR 1 1))).add (((hv 2).mul (hv 2)).mul_const (RTR 2 2))).add
    ((((((hv 0).mul (hv 1)).mul_const (RTR 0 1)).add (((hv 0).mul (hv 2)).mul_const (RTR 0 2))).add (((hv 1).mul (hv 2)).mul_const (RTR 1 2))).const_mul 2)
  have hne : metric RTR (fun k => dx0 (x t) pt k + rep k) ≠ 0 := by
    intro h; apply hd; unfold dist; rw [h, Real.sqrt_zero]
  have h := HasDerivAt.sqrt (f := fun t => metric RTR (fun k => dx0 (x t) pt k + rep k)) hm hne
  refine h.congr_deriv ?_
  have sym : ∀ i j, RTR i j = RTR j i := by
    obtain ⟨L, hL⟩ := hR
    intro i j; rw [hL, hL]; ring
  unfold dist at hd ⊢
  rw [Fin.sum_univ_three, sym 1 0, sym 2 0, sym 2 1]
  generalize Real.sqrt (metric RTR fun k => dx0 (x t) pt k + rep k) = q at hd ⊢
  field_simp
  ring

theorem sContrib_deriv (sigmaInv : ℝ) (R dr : ℝ → ℝ) (R' dr' t : ℝ) (hR : HasDerivAt R R' t) (hd : HasDerivAt dr dr' t) :
    HasDerivAt (fun t => sContrib sigmaInv (R t) (dr t))
      ((sigmaInv / Real.sqrt Real.pi) * Real.exp (-(sigmaInv * (R t - dr t)) * (sigmaInv * (R t - dr t))) * (dr' - R')) t := by
  have h := ((Smear.erfc_deriv _).comp (h := fun t => sigmaInv * (R t - dr t)) t ((hR.sub hd).const_mul sigmaInv)).const_mul 0.5
  refine h.congr_deriv ?_
  rw [show -(sigmaInv * (R t - dr t)) ^ 2 = -(sigmaInv * (R t - dr t)) * (sigmaInv * (R t - dr t)) by ring]
  have hpi : Real.sqrt Real.pi ≠ 0 := (Real.sqrt_pos.2 Real.pi_pos).ne'
  generalize Real.sqrt Real.pi = q at hpi ⊢
  generalize Real.exp _ = e
  field_simp
  ring

/-! ### The gradient as sums -/

theorem foldl_skip {ι : Type} (l : List ι) (P : ι → Prop) [DecidablePred P] (f : ι → ℝ) (E : ℝ) (h : ∀ i ∈ l, ¬P i) :
    l.foldl (fun E i => if P i then E else E + f i) E = E + (l.map f).sum := by
  induction l generalizing E with
  | nil => simp
  | cons a l ih =>
    rw [List.foldl_cons, if_neg (h a List.mem_cons_self), ih _ fun i hi => h i (List.mem_cons_of_mem _ hi), List.map_cons, List.sum_cons]
    ring

theorem sum_mul_right' {ι : Type} (l : List ι) (f : ι → ℝ) (c : ℝ) : (l.map f).sum * c = (l.map fun i => f i * c).sum := by
  induction l with
  | nil => simp
  | cons a l ih => simp only [List.map_cons, List.sum_cons, add_mul, ih]

theorem sum_add' {ι : Type} (l : List ι) (f h : ι → ℝ) : (l.map f).sum + (l.map h).sum = (l.map fun i => f i + h i).sum := by
  induction l with
  | nil => simp
  | cons a l ih => simp only [List.map_cons, List.sum_cons, ← ih]; ring

/-- What the code adds for one atom at one point, contracted with a change of the atom. -/
theorem soft_one (sigmaInv : ℝ) (RTR : Fin 3 → Fin 3 → ℝ) (reps : List (Fin 3 → Int)) (a : Atom) (pt : Fin 3 → ℝ) (s E_shape : ℝ) (x' : Fin 3 → ℝ) (R' : ℝ)
    (hs : s > 1e-14) (hd : ∀ rep ∈ reps, ¬dist RTR a.x pt rep < 1e-14) :
    dot3 (softE_x sigmaInv RTR reps a pt s E_shape) x' + softE_R sigmaInv RTR reps a pt s E_shape * R'
      = E_shape * (s * (reps.map fun rep => ((sigmaInv / Real.sqrt Real.pi) * Real.exp (-(sigmaInv * (a.R - dist RTR a.x pt rep)) * (sigmaInv * (a.R - dist RTR a.x pt rep)))
        * ((∑ k, (RTR k 0 * (dx0 a.x pt 0 + rep 0) + RTR k 1 * (dx0 a.x pt 1 + rep 1) + RTR k 2 * (dx0 a.x pt 2 + rep 2)) * x' k) / dist RTR a.x pt rep - R'))
        / sContrib sigmaInv a.R (dist RTR a.x pt rep)).sum) := by
  unfold softE_x softE_R dot3
  simp only [if_pos hs, sub_eq_add_neg]
  rw [foldl_skip _ _ _ _ hd, foldl_skip _ _ _ _ hd, foldl_skip _ _ _ _ hd, foldl_skip _ _ _ _ hd]
  simp only [zero_add, sum_mul_right', sum_add']
  rw [← mul_assoc, mul_comm, sum_mul_right']
  congr 1
  refine List.map_congr_left fun rep _ => ?_
  unfold E_dr
  have h1 := (sContrib_pos sigmaInv a.R (dist RTR a.x pt rep)).ne'
  rw [Fin.sum_univ_three]
  simp only [← sub_eq_add_neg]
  generalize Real.exp _ = e
  generalize sContrib sigmaInv a.R (dist RTR a.x pt rep) = c at h1 ⊢
  ring

end
end Jdftx.Cavity
