import Verif.Spec.Spline
import Verif.Lemmas.Spline
import Mathlib.Analysis.Calculus.Deriv.Pow
import Mathlib.Analysis.Calculus.Deriv.Add
import Mathlib.Analysis.Calculus.Deriv.Mul
import Mathlib.Topology.Order.Lattice

/-!
# Quintic splines (C42)
-/
namespace Jdftx.Spline
noncomputable section

/-! ## Pieces as polynomials -/

/-- Power coefficients of the Bernstein form. -/
def q (b : Nat → ℝ) : Nat → ℝ
  | 0 => b 0
  | 1 => 5 * (b 1 - b 0)
  | 2 => 10 * (b 2 - 2 * b 1 + b 0)
  | 3 => 10 * (b 3 - 3 * b 2 + 3 * b 1 - b 0)
  | 4 => 5 * (b 4 - 4 * b 3 + 6 * b 2 - 4 * b 1 + b 0)
  | _ => b 5 - 5 * b 4 + 10 * b 3 - 10 * b 2 + 5 * b 1 - b 0

/-- Derivative number `k` of the polynomial with coefficients `p`. -/
def P (p : Nat → ℝ) : Nat → ℝ → ℝ
  | 0, t => p 0 + p 1 * t + p 2 * t^2 + p 3 * t^3 + p 4 * t^4 + p 5 * t^5
  | 1, t => p 1 + 2 * p 2 * t + 3 * p 3 * t^2 + 4 * p 4 * t^3 + 5 * p 5 * t^4
  | 2, t => 2 * p 2 + 6 * p 3 * t + 12 * p 4 * t^2 + 20 * p 5 * t^3
  | 3, t => 6 * p 3 + 24 * p 4 * t + 60 * p 5 * t^2
  | _, t => 24 * p 4 + 120 * p 5 * t

/-- `5!/(5-k)!`. -/
def w : Nat → ℝ
  | 0 => 1
  | 1 => 5
  | 2 => 20
  | 3 => 60
  | _ => 120

/-- Coefficients of the piece starting at knot `n`. -/
def piece (e : Nat → ℝ) (n : Nat) : Nat → ℝ := q (bern fun i => e (n + i))

/-- Jump of the fifth derivative (divided by 5!) at knot `n+1`. -/
def jump (e : Nat → ℝ) (n : Nat) : ℝ := piece e (n+1) 5 - piece e n 5

theorem join (e : Nat → ℝ) (n k : Nat) (hk : k ≤ 4) (t : ℝ) :
    P (piece e (n+1)) k t = P (piece e n) k (t + 1) + jump e n * w k * t ^ (5 - k) := by
  have i1 : ∀ i, n + 1 + i = n + (i + 1) := fun i => by omega
  unfold jump piece
  simp only [i1]
  rcases k with _ | _ | _ | _ | _ | k
  · simp only [P, w, q, bern]; norm_num; ring
  · simp only [P, w, q, bern]; norm_num; ring
  · simp only [P, w, q, bern]; norm_num; ring
  · simp only [P, w, q, bern]; norm_num; ring
  · simp only [P, w, q, bern]; norm_num; ring
  · omega

/-- All pieces at once: the first polynomial plus truncated powers at the inner knots. -/
def F (e : Nat → ℝ) (M : Nat) (k : Nat) (x : ℝ) : ℝ :=
  P (piece e 0) k x + ∑ j ∈ Finset.range M, jump e j * w k * max (x - (j + 1)) 0 ^ (5 - k)

theorem pieces (e : Nat → ℝ) (k : Nat) (hk : k ≤ 4) : ∀ (n : Nat) (x : ℝ),
    P (piece e n) k (x - n) = P (piece e 0) k x + ∑ j ∈ Finset.range n, jump e j * w k * (x - (j + 1)) ^ (5 - k)
  | 0, x => by simp
  | n+1, x => by
    have := pieces e k hk n x
    rw [Finset.sum_range_succ, ← add_assoc, ← this, join e n k hk]
    push_cast
    congr 2 <;> ring

theorem F_eq (e : Nat → ℝ) (M k n : Nat) (hk : k ≤ 4) (hn : n ≤ M) (x : ℝ) (h1 : (n : ℝ) ≤ x) (h2 : x ≤ n + 1) :
    F e M k x = P (piece e n) k (x - n) := by
  unfold F
  rw [pieces e k hk n x]
  congr 1
  obtain ⟨m, rfl⟩ : ∃ m, M = n + m := ⟨M - n, by omega⟩
  rw [Finset.sum_range_add]
  have : ∑ j ∈ Finset.range m, jump e (n + j) * w k * max (x - ((n + j : Nat) + 1)) 0 ^ (5 - k) = 0 := by
    refine Finset.sum_eq_zero fun j _ => ?_
    have : x - ((n + j : Nat) + 1 : ℝ) ≤ 0 := by push_cast; have := Nat.cast_nonneg (α := ℝ) j; linarith
    rw [max_eq_right this, zero_pow (by omega), mul_zero]
  rw [this, add_zero]
  refine Finset.sum_congr rfl fun j hj => ?_
  have hj : (j : ℝ) + 1 ≤ n := by exact_mod_cast Finset.mem_range.1 hj
  rw [max_eq_left (by linarith)]

/-! ## Differentiability -/

theorem hasDeriv_shift (c : ℝ) (m : Nat) (x : ℝ) :
    HasDerivAt (fun x : ℝ => (x - c) ^ (m + 2)) ((m + 2 : ℝ) * (x - c) ^ (m + 1)) x := by
  have := ((hasDerivAt_id x).sub_const c).pow (m + 2)
  refine (this.congr_deriv ?_).congr_of_eventuallyEq (Filter.Eventually.of_forall fun t => ?_)
  · simp
  · simp

theorem hasDeriv_trunc (c : ℝ) (m : Nat) (x : ℝ) :
    HasDerivAt (fun x => max (x - c) 0 ^ (m + 2)) ((m + 2 : ℝ) * max (x - c) 0 ^ (m + 1)) x := by
  rcases lt_trichotomy x c with h | h | h
  · rw [max_eq_right (by linarith), zero_pow (by omega), mul_zero]
    refine (hasDerivAt_const x (0 : ℝ)).congr_of_eventuallyEq ?_
    filter_upwards [gt_mem_nhds h] with y hy
    rw [max_eq_right (by linarith), zero_pow (by omega)]
  · subst h
    rw [sub_self, max_self]
    have hl : HasDerivWithinAt (fun y => max (y - x) 0 ^ (m + 2)) ((m + 2 : ℝ) * 0 ^ (m + 1)) (Set.Iic x) x := by
      rw [zero_pow (by omega), mul_zero]
      refine (hasDerivWithinAt_const x (Set.Iic x) (0 : ℝ)).congr ?_ ?_
      · intro y hy
        have hy : y ≤ x := hy
        rw [max_eq_right (by linarith), zero_pow (by omega)]
      · rw [sub_self, max_self, zero_pow (by omega)]
    have hr : HasDerivWithinAt (fun y => max (y - x) 0 ^ (m + 2)) ((m + 2 : ℝ) * 0 ^ (m + 1)) (Set.Ici x) x := by
      have := (hasDeriv_shift x m x).hasDerivWithinAt (s := Set.Ici x)
      rw [sub_self] at this
      refine this.congr ?_ ?_
      · intro y hy
        have hy : x ≤ y := hy
        rw [max_eq_left (by linarith)]
      · rw [sub_self, max_self]
    have := hl.union hr
    rwa [Set.Iic_union_Ici, hasDerivWithinAt_univ] at this
  · rw [max_eq_left (by linarith)]
    refine (hasDeriv_shift c m x).congr_of_eventuallyEq ?_
    filter_upwards [lt_mem_nhds h] with y hy
    rw [max_eq_left (by linarith)]

theorem P_deriv (p : Nat → ℝ) (k : Nat) (hk : k < 4) (x : ℝ) : HasDerivAt (P p k) (P p (k+1) x) x := by
  have h : ∀ n : Nat, HasDerivAt (fun x : ℝ => x ^ n) (n * x ^ (n - 1)) x := fun n => hasDerivAt_pow n x
  have hc : ∀ c : ℝ, HasDerivAt (fun _ : ℝ => c) 0 x := fun c => hasDerivAt_const x c
  rcases k with _ | _ | _ | _ | k
  · have := (((((hc (p 0)).add ((h 1).const_mul (p 1))).add ((h 2).const_mul (p 2))).add ((h 3).const_mul (p 3))).add ((h 4).const_mul (p 4))).add ((h 5).const_mul (p 5))
    refine (this.congr_deriv ?_).congr_of_eventuallyEq (Filter.Eventually.of_forall fun t => ?_)
    · simp only [P]; norm_num; ring
    · simp [P]
  · have := ((((hc (p 1)).add ((h 1).const_mul (2 * p 2))).add ((h 2).const_mul (3 * p 3))).add ((h 3).const_mul (4 * p 4))).add ((h 4).const_mul (5 * p 5))
    refine (this.congr_deriv ?_).congr_of_eventuallyEq (Filter.Eventually.of_forall fun t => ?_)
    · simp only [P]; norm_num; ring
    · simp [P]
  · have := (((hc (2 * p 2)).add ((h 1).const_mul (6 * p 3))).add ((h 2).const_mul (12 * p 4))).add ((h 3).const_mul (20 * p 5))
    refine (this.congr_deriv ?_).congr_of_eventuallyEq (Filter.Eventually.of_forall fun t => ?_)
    · simp only [P]; norm_num; ring
    · simp [P]
  · have := (((hc (6 * p 3)).add ((h 1).const_mul (24 * p 4))).add ((h 2).const_mul (60 * p 5)))
    refine (this.congr_deriv ?_).congr_of_eventuallyEq (Filter.Eventually.of_forall fun t => ?_)
    · simp only [P]; norm_num; ring
    · simp [P]
  · omega

theorem F_smooth (e : Nat → ℝ) (M : Nat) : Smooth4 (F e M) := by
  constructor
  · intro k hk x
    have hs : HasDerivAt (fun x : ℝ => ∑ j ∈ Finset.range M, jump e j * w k * max (x - (j + 1)) 0 ^ (5 - k))
        (∑ j ∈ Finset.range M, jump e j * w (k+1) * max (x - (j + 1)) 0 ^ (5 - (k+1))) x := by
      refine HasDerivAt.fun_sum fun j _ => ?_
      have h := (hasDeriv_trunc ((j : ℝ) + 1) (3 - k) x).const_mul (jump e j * w k)
      rcases k with _ | _ | _ | _ | k
      · refine h.congr_deriv ?_; norm_num [w]; ring
      · refine h.congr_deriv ?_; norm_num [w]; ring
      · refine h.congr_deriv ?_; norm_num [w]; ring
      · refine h.congr_deriv ?_; norm_num [w]; ring
      · omega
    exact (P_deriv _ k hk x).add hs
  · unfold F P
    fun_prop

/-! ## The program -/

theorem toInt_nat {x : ℝ} {n : Nat} (h1 : (n : ℝ) ≤ x) (h2 : x < n + 1) : toInt x = n := by
  unfold toInt
  rw [if_pos (le_trans (Nat.cast_nonneg n) h1)]
  exact Int.floor_eq_iff.2 ⟨by exact_mod_cast h1, by exact_mod_cast h2⟩

theorem getBernstein_ok (c : Arr) {x : ℝ} {n : Nat} (h1 : (n : ℝ) ≤ x) (h2 : x < n + 1) (h3 : n + 5 < c.size) :
    getBernstein c x = .ok (x - n, bern fun i => c.f (n + i)) := by
  unfold getBernstein
  simp only
  rw [toInt_nat h1 h2, if_pos (by omega)]
  simp

theorem value_ok (c : Arr) {x : ℝ} {n : Nat} (h1 : (n : ℝ) ≤ x) (h2 : x < n + 1) (h3 : n + 5 < c.size) :
    value c x = .ok (P (piece c.f n) 0 (x - n)) := by
  unfold value
  rw [getBernstein_ok c h1 h2 h3]
  simp only [casteljau, P, piece, q]
  congr 1
  ring

theorem deriv_ok (c : Arr) {x : ℝ} {n : Nat} (h1 : (n : ℝ) ≤ x) (h2 : x < n + 1) (h3 : n + 5 < c.size) :
    deriv c x = .ok (P (piece c.f n) 1 (x - n)) := by
  unfold deriv
  rw [getBernstein_ok c h1 h2 h3]
  simp only [casteljau, P, piece, q]
  congr 1
  ring

/-- For three or more samples at `0, ..., N-1`, the coefficients computed by the program describe, on the whole range `[0, N-1)`,
a function `F 0` that is four times continuously differentiable, `deriv` evaluates its derivative, it goes through all samples
(with the odd extension, through zero instead of the first), it is even or odd about zero to all orders up to four, and its third and fourth
derivatives vanish at the last sample. -/
theorem C42_spline (samples : List ℝ) (hN : 3 ≤ samples.length) (odd : Bool) :
    ∃ coeff F, getCoeff samples odd = .ok coeff ∧ Smooth4 F ∧
      (∀ x, 0 ≤ x → x < (samples.length : ℝ) - 1 → value coeff x = .ok (F 0 x) ∧ deriv coeff x = .ok (F 1 x)) ∧
      (∀ i < samples.length, F 0 i = if odd ∧ i = 0 then 0 else samples.getD i 0) ∧
      (odd = false → F 1 0 = 0 ∧ F 3 0 = 0) ∧ (odd = true → F 0 0 = 0 ∧ F 2 0 = 0 ∧ F 4 0 = 0) ∧
      F 3 (samples.length - 1) = 0 ∧ F 4 (samples.length - 1) = 0 := by
  obtain ⟨N, hNN⟩ : ∃ N, samples.length = N := ⟨_, rfl⟩
  unfold getCoeff
  rw [hNN] at hN ⊢
  simp only
  rw [if_neg (by omega)]
  have hsys := solve_ok N _ (bandsBC_inv N hN odd fun i => if odd ∧ i = 0 then 0 else samples.getD i 0)
  generalize reverse N (forward N (bandsBC N odd, fun i => if odd ∧ i = 0 then 0 else samples.getD i 0) N).1 N
    (forward N (bandsBC N odd, fun i => if odd ∧ i = 0 then 0 else samples.getD i 0) N).2 = c at hsys ⊢
  generalize he : (fun i =>
      if i = 0 then sgn odd * c 2
      else if i = 1 then sgn odd * c 1
      else if i < N + 2 then c (i - 2)
      else if i = N + 2 then extrap 0 0 * c (N-3) + extrap 0 1 * c (N-2) + extrap 0 2 * c (N-1)
      else extrap 1 0 * c (N-3) + extrap 1 1 * c (N-2) + extrap 1 2 * c (N-1)) = e
  have e0 : e 0 = sgn odd * c 2 := by rw [← he]; simp
  have e1 : e 1 = sgn odd * c 1 := by rw [← he]; simp
  have ei : ∀ i < N, e (i+2) = c i := by
    intro i hi; rw [← he]; simp only
    rw [if_neg (by omega), if_neg (by omega), if_pos (by omega)]; congr 1
  have en : e (N+2) = c (N-3) - 3 * c (N-2) + 3 * c (N-1) := by
    rw [← he]; simp only
    rw [if_neg (by omega), if_neg (by omega), if_neg (by omega), if_pos trivial]; simp only [extrap]; ring
  have en' : e (N+3) = 3 * c (N-3) - 8 * c (N-2) + 6 * c (N-1) := by
    rw [← he]; simp only
    rw [if_neg (by omega), if_neg (by omega), if_neg (by omega), if_neg (by omega)]; simp only [extrap]; ring
  have hk := knots N hN odd _ c e hsys e0 e1 ei en en'
  obtain ⟨M, hM⟩ : ∃ M, N = M + 2 := ⟨N - 2, by omega⟩
  have hknot : ∀ i < N, F e M 0 (i : ℝ) = if odd ∧ i = 0 then 0 else samples.getD i 0 := by
    intro i hi
    have key : F e M 0 (i : ℝ) = (1/66) * (e i + 26 * e (i+1) + 66 * e (i+2) + 26 * e (i+3) + e (i+4)) := by
      by_cases hl : i ≤ M
      · rw [F_eq e M 0 i (by omega) hl i (le_refl _) (by linarith), sub_self]
        simp [P, piece, q, bern]
      · have : i = M + 1 := by omega
        subst this
        rw [F_eq e M 0 M (by omega) (le_refl _) _ (by push_cast; linarith) (by push_cast; linarith)]
        have h1 : ((M + 1 : Nat) : ℝ) - M = 1 := by push_cast; ring
        rw [h1]
        simp only [P, piece, q, bern]
        rw [show M + 1 + 1 = M + 2 by omega, show M + 1 + 2 = M + 3 by omega, show M + 1 + 3 = M + 4 by omega, show M + 1 + 4 = M + 5 by omega]
        ring
    rw [key, hk i hi]; ring
  refine ⟨_, F e M, rfl, F_smooth e M, ?_, hknot, ?_, ?_, ?_, ?_⟩
  · intro x h1 h2
    obtain ⟨n, hn⟩ : ∃ n : Nat, (n : ℝ) ≤ x ∧ x < n + 1 := ⟨⌊x⌋₊, Nat.floor_le h1, Nat.lt_floor_add_one x⟩
    have hnM : n ≤ M := by
      have : (n : ℝ) < M + 1 := by rw [hM] at h2; push_cast at h2; linarith [hn.1]
      have : n < M + 1 := by exact_mod_cast this
      omega
    rw [value_ok _ hn.1 hn.2 (by simp only; omega), deriv_ok _ hn.1 hn.2 (by simp only; omega),
      F_eq e M 0 n (by omega) hnM x hn.1 hn.2.le, F_eq e M 1 n (by omega) hnM x hn.1 hn.2.le]
    exact ⟨rfl, rfl⟩
  · intro ho
    subst ho
    have f1 := F_eq e M 1 0 (by omega) (by omega) 0 (by simp) (by simp)
    have f3 := F_eq e M 3 0 (by omega) (by omega) 0 (by simp) (by simp)
    have e2 := ei 0 (by omega)
    have e3 := ei 1 (by omega)
    have e4 := ei 2 (by omega)
    norm_num [sgn] at e0 e1 e2 e3 e4
    rw [f1, f3]
    simp only [P, piece, q, bern, Nat.cast_zero, sub_zero, Nat.zero_add]
    rw [e0, e1, e2, e3, e4]
    constructor <;> ring
  · intro ho
    subst ho
    have f0 := F_eq e M 0 0 (by omega) (by omega) 0 (by simp) (by simp)
    have f2 := F_eq e M 2 0 (by omega) (by omega) 0 (by simp) (by simp)
    have f4 := F_eq e M 4 0 (by omega) (by omega) 0 (by simp) (by simp)
    have e2 := ei 0 (by omega)
    have e3 := ei 1 (by omega)
    have e4 := ei 2 (by omega)
    have k0 := hk 0 (by omega)
    norm_num [sgn] at e0 e1 e2 e3 e4 k0
    rw [f0, f2, f4]
    simp only [P, piece, q, bern, Nat.cast_zero, sub_zero, Nat.zero_add]
    rw [e0, e1, e2, e3, e4] at *
    have c0 : c 0 = 0 := by linarith
    rw [c0]
    refine ⟨?_, ?_, ?_⟩ <;> ring
  · have : (N : ℝ) - 1 = M + 1 := by rw [hM]; push_cast; ring
    rw [this, F_eq e M 3 M (by omega) (le_refl _) _ (by linarith) (le_refl _), show (M : ℝ) + 1 - M = 1 by ring]
    have a1 := ei (M-1) (by omega)
    have a2 := ei M (by omega)
    have a3 := ei (M+1) (by omega)
    rw [hM, show M + 2 - 3 = M - 1 by omega, show M + 2 - 2 = M by omega, show M + 2 - 1 = M + 1 by omega] at en en'
    rw [show M - 1 + 2 = M + 1 by omega] at a1
    simp only [P, piece, q, bern]
    rw [show M + 1 + 2 = M + 3 by omega] at a3
    rw [show M + 2 + 2 = M + 4 by omega] at en
    rw [show M + 2 + 3 = M + 5 by omega] at en'
    rw [en, en', a1, a2, a3]
    ring
  · have : (N : ℝ) - 1 = M + 1 := by rw [hM]; push_cast; ring
    rw [this, F_eq e M 4 M (by omega) (le_refl _) _ (by linarith) (le_refl _), show (M : ℝ) + 1 - M = 1 by ring]
    have a1 := ei (M-1) (by omega)
    have a2 := ei M (by omega)
    have a3 := ei (M+1) (by omega)
    rw [hM, show M + 2 - 3 = M - 1 by omega, show M + 2 - 2 = M by omega, show M + 2 - 1 = M + 1 by omega] at en en'
    rw [show M - 1 + 2 = M + 1 by omega] at a1
    simp only [P, piece, q, bern]
    rw [show M + 1 + 2 = M + 3 by omega] at a3
    rw [show M + 2 + 2 = M + 4 by omega] at en
    rw [show M + 2 + 3 = M + 5 by omega] at en'
    rw [en, en', a1, a2, a3]
    ring

theorem foldl_add (n : Nat) (v : Nat → ℝ) (f : Nat → ℝ) (k : Nat) (x : Nat) :
    (List.range k).foldl (fun f i => Function.update f (n + i) (f (n + i) + v i)) f x = f x + ∑ t ∈ Finset.range k, if x = n + t then v t else 0 := by
  induction k with
  | zero => simp
  | succ k ih =>
    rw [List.range_succ, List.foldl_append, Finset.sum_range_succ]
    simp only [List.foldl_cons, List.foldl_nil]
    by_cases h : x = n + k
    · subst h
      rw [Function.update_self, ih, if_pos rfl, add_assoc]
    · rw [Function.update_of_ne h, ih, if_neg h, add_zero]

/-- `valueGrad` adds to every coefficient's entry the derivative of `Evalue * value` with respect to that coefficient: paired with
any coefficients the added part gives `Evalue` times the value, which is linear in the coefficients. -/
theorem C42_gradient (Evalue : ℝ) (E : Arr) (x : ℝ) (hx : 0 ≤ x) (hsz : x < (E.size : ℝ) - 5) :
    ∃ E', valueGrad Evalue E x = .ok E' ∧ E'.size = E.size ∧
      ∀ c : Arr, c.size = E.size → ∃ v, value c x = .ok v ∧
        ∑ i ∈ Finset.range E.size, c.f i * (E'.f i - E.f i) = Evalue * v := by
  obtain ⟨n, hn⟩ : ∃ n : Nat, (n : ℝ) ≤ x ∧ x < n + 1 := ⟨⌊x⌋₊, Nat.floor_le hx, Nat.lt_floor_add_one x⟩
  have hn5 : n + 5 < E.size := by
    have : (n : ℝ) + 5 < E.size := by linarith [hn.1]
    exact_mod_cast this
  unfold valueGrad
  simp only [toInt_nat hn.1 hn.2]
  rw [if_pos (by omega)]
  refine ⟨_, rfl, rfl, ?_⟩
  intro c hc
  refine ⟨_, value_ok c hn.1 hn.2 (by omega), ?_⟩
  simp only [Int.toNat_natCast, Int.cast_natCast, foldl_add, add_sub_cancel_left, Finset.mul_sum]
  rw [Finset.sum_comm]
  have : ∀ (v : Nat → ℝ), ∀ t ∈ Finset.range 6, (∑ i ∈ Finset.range E.size, c.f i * if i = n + t then v t else 0) = c.f (n + t) * v t := by
    intro v t ht
    have ht := Finset.mem_range.1 ht
    rw [Finset.sum_eq_single (n + t)]
    · rw [if_pos rfl]
    · intro i _ h; rw [if_neg h, mul_zero]
    · intro h; exact absurd (Finset.mem_range.2 (by omega)) h
  rw [Finset.sum_congr rfl (this _)]
  simp only [Finset.sum_range_succ, Finset.sum_range_zero, P, piece, q, bern, bernGrad, backtrace, List.range, List.range.loop, List.foldl_cons, List.foldl_nil,
    Function.update_apply]
  norm_num
  ring

/-- Fewer than three samples: undefined behaviour. Evaluating at the last sample reads beyond the coefficients. -/
theorem C42_limits (samples : List ℝ) (odd : Bool) :
    (samples.length < 3 → getCoeff samples odd = .error .ub) ∧
    ∀ coeff, getCoeff samples odd = .ok coeff → value coeff (samples.length - 1 : Nat) = .error .ub := by
  constructor
  · intro h; unfold getCoeff; simp only; rw [if_pos h]
  · intro coeff h
    unfold getCoeff at h
    simp only at h
    split at h
    · cases h
    · cases h
      unfold value getBernstein
      simp only
      rw [toInt_nat (le_refl _) (by linarith), if_neg (by omega)]

theorem toInt_bounds (x : ℝ) (m : ℕ) : (0 ≤ toInt x ∧ toInt x + 5 < m) ↔ (-1 < x ∧ x < (m : ℝ) - 5 ∧ 5 < m) := by
  unfold toInt
  by_cases h : 0 ≤ x
  · rw [if_pos h]
    have h0 : 0 ≤ ⌊x⌋ := Int.floor_nonneg.2 h
    constructor
    · rintro ⟨_, h2⟩
      have h3 : ⌊x⌋ < (m : ℤ) - 5 := by omega
      rw [Int.floor_lt] at h3
      push_cast at h3
      refine ⟨by linarith, h3, ?_⟩
      have : (5 : ℝ) < m := by linarith
      exact_mod_cast this
    · rintro ⟨_, h2, _⟩
      refine ⟨h0, ?_⟩
      have h3 : ⌊x⌋ < (m : ℤ) - 5 := by rw [Int.floor_lt]; push_cast; exact h2
      omega
  · rw [if_neg h]
    push Not at h
    have h1 : ⌈x⌉ ≤ 0 := Int.ceil_le.2 (by push_cast; exact h.le)
    constructor
    · rintro ⟨h2, h3⟩
      have h4 : (-1 : ℤ) < ⌈x⌉ := by omega
      rw [Int.lt_ceil] at h4
      push_cast at h4
      have h5 : 5 < m := by omega
      have h6 : (5 : ℝ) < m := by exact_mod_cast h5
      exact ⟨h4, by linarith, h5⟩
    · rintro ⟨h2, _, h5⟩
      have h4 : (-1 : ℤ) < ⌈x⌉ := by rw [Int.lt_ceil]; push_cast; exact h2
      omega

/-- Exactly the points strictly between -1 and the number of coefficients less five can be evaluated, by all three functions; elsewhere
coefficients that do not exist are read or written. In particular points between -1 and 0 are not noticed. -/
theorem C42_bounds (c : Arr) (x Evalue : ℝ) :
    (-1 < x ∧ x < (c.size : ℝ) - 5 ∧ 5 < c.size →
      (∃ v, value c x = .ok v) ∧ (∃ v, deriv c x = .ok v) ∧ ∃ E, valueGrad Evalue c x = .ok E ∧ E.size = c.size) ∧
    (¬ (-1 < x ∧ x < (c.size : ℝ) - 5 ∧ 5 < c.size) →
      value c x = .error .ub ∧ deriv c x = .error .ub ∧ valueGrad Evalue c x = .error .ub) := by
  rw [← toInt_bounds x c.size]
  constructor
  · intro h
    refine ⟨?_, ?_, ?_⟩
    · unfold value getBernstein; simp only; rw [if_pos h]; exact ⟨_, rfl⟩
    · unfold deriv getBernstein; simp only; rw [if_pos h]; exact ⟨_, rfl⟩
    · unfold valueGrad; simp only; rw [if_pos h]; exact ⟨_, rfl, rfl⟩
  · intro h
    refine ⟨?_, ?_, ?_⟩
    · unfold value getBernstein; simp only; rw [if_neg h]
    · unfold deriv getBernstein; simp only; rw [if_neg h]
    · unfold valueGrad; simp only; rw [if_neg h]

/-- The bounds are met inside, and not at the end. -/
example : (-1 < (3.5 : ℝ) ∧ (3.5 : ℝ) < ((9 : ℕ) : ℝ) - 5 ∧ 5 < 9) ∧ ¬ (-1 < (4 : ℝ) ∧ (4 : ℝ) < ((9 : ℕ) : ℝ) - 5 ∧ 5 < 9) := by norm_num

/-- Three samples meet the hypotheses. -/
example : 3 ≤ ([1, 2, 5] : List ℝ).length := by simp

end
end Jdftx.Spline
