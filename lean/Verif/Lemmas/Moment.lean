import Verif.Model.Moment
import Verif.Spec.Moment
import Mathlib.Algebra.BigOperators.Ring.Finset
import Mathlib.Tactic.Ring
import Mathlib.Tactic.Linarith
import Mathlib.Tactic.FieldSimp
import Mathlib.Tactic.FinCases
/-! # Lemmas on dipole moments -/
namespace Jdftx.Moment
open Jdftx.M3
open scoped BigOperators

/-- Nested loops: from the inner to the outer one. -/
theorem loop_nest {A : Type} (body : V3 ℝ × ℕ → A → V3 ℝ × ℕ) (n w : ℕ) (inner : ℕ → List A) (c : ℕ → ℕ → V3 ℝ)
    (h : ∀ i < n, ∀ m t, (inner i).foldl body (m, t) = ((fun d => m d + c i t d), t + w)) (m : V3 ℝ) (t : ℕ) :
    ((List.range n).flatMap inner).foldl body (m, t) =
      ((fun d => m d + ∑ i ∈ Finset.range n, c i (t + i * w) d), t + n * w) := by
  induction n with
  | zero => simp
  | succ n ih =>
    rw [List.range_succ, List.flatMap_append, List.foldl_append, ih fun i hi => h i (by omega)]
    simp only [List.flatMap_cons, List.flatMap_nil, List.append_nil]
    rw [h n (by omega)]
    refine Prod.ext ?_ (by simp; ring)
    funext d
    simp only [Finset.sum_range_succ]; ring

theorem elec_eq (red : V3 ℝ → V3 ℝ) (x0 : V3 ℝ) (S : Fin 3 → ℕ) (data : ℕ → ℝ) (dV : ℝ) (rho : V3 Int → ℝ)
    (h : Holds S data rho) (d : Fin 3) :
    elecMoment red x0 S data dV d = meshSum S (fun iv => wrap red x0 (meshPos S iv) d * rho iv) * dV := by
  unfold elecMoment cells
  have h1 : ∀ i j : ℕ, ∀ m t, ((List.range (S 2)).map fun (k : ℕ) => (vec (i : Int) (j : Int) (k : Int) : V3 Int)).foldl
      (fun (a : V3 ℝ × ℕ) iv => ((fun d => a.1 d + wrap red x0 (meshPos S iv) d * data a.2), a.2 + 1)) (m, t) =
      ((fun d => m d + ∑ k ∈ Finset.range (S 2), wrap red x0 (meshPos S (vec (i : Int) j k)) d * data (t + k)), t + S 2) := by
    intro i j m t
    have := loop_nest (A := V3 Int)
      (fun (a : V3 ℝ × ℕ) iv => ((fun d => a.1 d + wrap red x0 (meshPos S iv) d * data a.2), a.2 + 1)) (S 2) 1
      (fun (k : ℕ) => [vec (i : Int) (j : Int) (k : Int)]) (fun (k t : ℕ) d => wrap red x0 (meshPos S (vec (i : Int) (j : Int) (k : Int))) d * data t)
      (fun k _ m t => rfl) m t
    rw [← List.map_eq_flatMap] at this
    simpa using this
  have h2 : ∀ i : ℕ, ∀ m t, ((List.range (S 1)).flatMap fun (j : ℕ) => (List.range (S 2)).map fun (k : ℕ) =>
      (vec (i : Int) (j : Int) (k : Int) : V3 Int)).foldl
      (fun (a : V3 ℝ × ℕ) iv => ((fun d => a.1 d + wrap red x0 (meshPos S iv) d * data a.2), a.2 + 1)) (m, t) =
      ((fun d => m d + ∑ j ∈ Finset.range (S 1), ∑ k ∈ Finset.range (S 2),
        wrap red x0 (meshPos S (vec (i : Int) j k)) d * data (t + j * S 2 + k)), t + S 1 * S 2) := by
    intro i m t
    exact loop_nest (A := V3 Int) _ (S 1) (S 2) _
      (fun (j t : ℕ) d => ∑ k ∈ Finset.range (S 2), wrap red x0 (meshPos S (vec (i : Int) (j : Int) (k : Int))) d * data (t + k))
      (fun j _ m t => h1 i j m t) m t
  have h3 := loop_nest (A := V3 Int) _ (S 0) (S 1 * S 2) _
      (fun (i t : ℕ) d => ∑ j ∈ Finset.range (S 1), ∑ k ∈ Finset.range (S 2),
        wrap red x0 (meshPos S (vec (i : Int) j k)) d * data (t + j * S 2 + k))
      (fun i _ m t => h2 i m t) (fun _ => 0) 0
  simp only [h3, zero_add]
  congr 1
  unfold meshSum
  refine Finset.sum_congr rfl fun i hi => Finset.sum_congr rfl fun j hj => Finset.sum_congr rfl fun k hk => ?_
  beta_reduce
  rw [← h i (Finset.mem_range.mp hi) j (Finset.mem_range.mp hj) k (Finset.mem_range.mp hk)]
  congr 2; ring

theorem ion_eq (red : V3 ℝ → V3 ℝ) (x0 : V3 ℝ) (species : List (ℝ × List (V3 ℝ))) (d : Fin 3) :
    ionMoment red x0 species d = -atomSum species fun p => wrap red x0 p d := by
  have h1 : ∀ (Z : ℝ) (l : List (V3 ℝ)) (m : V3 ℝ),
      l.foldl (fun m pos => fun d => m d - Z * wrap red x0 pos d) m d = m d - Z * (l.map fun p => wrap red x0 p d).sum := by
    intro Z l
    induction l with
    | nil => intro m; simp
    | cons p l ih => intro m; rw [List.foldl_cons, ih, List.map_cons, List.sum_cons]; ring
  have h2 : ∀ (l : List (ℝ × List (V3 ℝ))) (m : V3 ℝ),
      l.foldl (fun m sp => sp.2.foldl (fun m pos => fun d => m d - sp.1 * wrap red x0 pos d) m) m d =
        m d - atomSum l fun p => wrap red x0 p d := by
    intro l
    induction l with
    | nil => intro m; simp [atomSum]
    | cons sp l ih =>
      intro m
      rw [List.foldl_cons, ih, h1]
      simp only [atomSum, List.map_cons, List.sum_cons]; ring
  rw [ionMoment, h2]; simp

theorem atomSum_add (species : List (ℝ × List (V3 ℝ))) (f g : V3 ℝ → ℝ) :
    atomSum species (fun p => f p + g p) = atomSum species f + atomSum species g := by
  unfold atomSum
  rw [← List.sum_map_add]
  congr 1
  refine List.map_congr_left fun sp _ => ?_
  rw [List.sum_map_add]; ring

theorem atomSum_smul (species : List (ℝ × List (V3 ℝ))) (c : ℝ) (f : V3 ℝ → ℝ) :
    atomSum species (fun p => c * f p) = c * atomSum species f := by
  unfold atomSum
  rw [← List.sum_map_mul_left]
  congr 1
  refine List.map_congr_left fun sp _ => ?_
  rw [List.sum_map_mul_left]; ring

theorem atomSum_congr (species : List (ℝ × List (V3 ℝ))) (f g : V3 ℝ → ℝ) (h : ∀ sp ∈ species, ∀ p ∈ sp.2, f p = g p) :
    atomSum species f = atomSum species g := by
  unfold atomSum
  congr 1
  refine List.map_congr_left fun sp hsp => ?_
  rw [List.map_congr_left fun p hp => h sp hsp p hp]

/-- Sum of a periodic function over a shifted range. -/
theorem range_shift (n : ℕ) (g : ℤ → ℝ) (hg : ∀ i, g (i + n) = g i) (k : ℤ) :
    ∑ i ∈ Finset.range n, g ((i : ℤ) + k) = ∑ i ∈ Finset.range n, g (i : ℤ) := by
  have one : ∀ f : ℤ → ℝ, (∀ i, f (i + n) = f i) →
      ∑ i ∈ Finset.range n, f ((i : ℤ) + 1) = ∑ i ∈ Finset.range n, f (i : ℤ) := by
    intro f hf
    have h1 := Finset.sum_range_succ (fun i : ℕ => f (i : ℤ)) n
    have h2 := Finset.sum_range_succ' (fun i : ℕ => f (i : ℤ)) n
    have h3 := hf 0
    simp only [zero_add] at h3
    push_cast at h1 h2
    linarith
  induction k using Int.induction_on with
  | zero => simp
  | succ k ih =>
    rw [← ih, ← one (fun i => g (i + k)) (fun i => by rw [show i + (n : ℤ) + k = i + k + n by ring, hg])]
    refine Finset.sum_congr rfl fun i _ => ?_
    congr 1; ring
  | pred k ih =>
    rw [← ih, ← one (fun i => g (i + (-k - 1))) (fun i => by
      rw [show i + (n : ℤ) + (-k - 1) = i + (-k - 1) + n by ring, hg])]
    refine Finset.sum_congr rfl fun i _ => ?_
    congr 1; ring

theorem vec_shift (i j k : ℤ) (s : V3 Int) : (fun d => (vec i j k : V3 Int) d + s d) = vec (i + s 0) (j + s 1) (k + s 2) := by
  funext d; fin_cases d <;> rfl

theorem meshSum_shift (S : Fin 3 → ℕ) (f : V3 Int → ℝ) (hf : Repeats S f) (s : V3 Int) :
    meshSum S (fun iv => f (fun d => iv d + s d)) = meshSum S f := by
  have p0 : ∀ i j k : ℤ, f (vec (i + S 0) j k) = f (vec i j k) := by
    intro i j k
    rw [← hf (vec 1 0 0) (vec i j k)]
    congr 1; funext d; fin_cases d <;> simp [vec]
  have p1 : ∀ i j k : ℤ, f (vec i (j + S 1) k) = f (vec i j k) := by
    intro i j k
    rw [← hf (vec 0 1 0) (vec i j k)]
    congr 1; funext d; fin_cases d <;> simp [vec]
  have p2 : ∀ i j k : ℤ, f (vec i j (k + S 2)) = f (vec i j k) := by
    intro i j k
    rw [← hf (vec 0 0 1) (vec i j k)]
    congr 1; funext d; fin_cases d <;> simp [vec]
  unfold meshSum
  simp only [vec_shift]
  rw [range_shift (S 0) (fun i => ∑ j ∈ Finset.range (S 1), ∑ k ∈ Finset.range (S 2), f (vec i (j + s 1) (k + s 2)))
    (fun i => by simp only [p0])]
  refine Finset.sum_congr rfl fun i _ => ?_
  rw [range_shift (S 1) (fun j => ∑ k ∈ Finset.range (S 2), f (vec (i : ℤ) j (k + s 2))) (fun j => by simp only [p1])]
  refine Finset.sum_congr rfl fun j _ => ?_
  exact range_shift (S 2) (fun k => f (vec (i : ℤ) j k)) (fun k => p2 _ _ _) _

theorem meshSum_add (S : Fin 3 → ℕ) (f g : V3 Int → ℝ) :
    meshSum S (fun iv => f iv + g iv) = meshSum S f + meshSum S g := by
  simp only [meshSum, Finset.sum_add_distrib]

theorem meshSum_smul (S : Fin 3 → ℕ) (c : ℝ) (f : V3 Int → ℝ) : meshSum S (fun iv => c * f iv) = c * meshSum S f := by
  simp only [meshSum, Finset.mul_sum]

end Jdftx.Moment
