import Verif.Spec.SCF
import Verif.Lemmas.PCMSolve
import Verif.Props.Pulay
import Mathlib.LinearAlgebra.Matrix.ConjTranspose
import Mathlib.Tactic.FinCases
import Mathlib.Tactic.LinearCombination

/-!
# Lemmas for C107
-/
namespace Jdftx.SCF
open Box ExCorr Cavity
open scoped ComplexConjugate
noncomputable section

variable (g : Grid) (p : Params) {m : Mode} {nRho : ℕ}

theorem foldl_min_le (L : List (ℤ × ℤ × ℤ)) (f : ℤ × ℤ × ℤ → ℝ) (a : ℝ) :
    (∀ v ∈ L, v ≠ (0, 0, 0) → L.foldl (fun m v => if v ≠ (0, 0, 0) then min m (f v) else m) a ≤ f v) ∧
      L.foldl (fun m v => if v ≠ (0, 0, 0) then min m (f v) else m) a ≤ a := by
  induction L generalizing a with
  | nil => simp
  | cons w L ih =>
    rw [List.foldl_cons]
    constructor
    · intro v hv hne
      rcases List.mem_cons.1 hv with rfl | hv
      · refine (ih _).2.trans ?_
        rw [if_pos hne]
        exact min_le_right _ _
      · exact (ih _).1 v hv hne
    · refine (ih _).2.trans ?_
      split
      · exact min_le_left _ _
      · exact le_rfl

theorem foldl_min_pos (L : List (ℤ × ℤ × ℤ)) (f : ℤ × ℤ × ℤ → ℝ) (a : ℝ) (ha : 0 < a) (hf : ∀ v ∈ L, v ≠ (0, 0, 0) → 0 < f v) :
    0 < L.foldl (fun m v => if v ≠ (0, 0, 0) then min m (f v) else m) a := by
  induction L generalizing a with
  | nil => exact ha
  | cons w L ih =>
    rw [List.foldl_cons]
    refine ih _ ?_ fun v hv => hf v (List.mem_cons_of_mem _ hv)
    split
    · rename_i h
      exact lt_min ha (hf w List.mem_cons_self h)
    · exact ha

theorem foldl_min_att (L : List (ℤ × ℤ × ℤ)) (f : ℤ × ℤ × ℤ → ℝ) (a : ℝ) :
    (L.foldl (fun m v => if v ≠ (0, 0, 0) then min m (f v) else m) a = a) ∨
      ∃ v ∈ L, v ≠ (0, 0, 0) ∧ L.foldl (fun m v => if v ≠ (0, 0, 0) then min m (f v) else m) a = f v := by
  induction L generalizing a with
  | nil => simp
  | cons w L ih =>
    rw [List.foldl_cons]
    rcases ih (if w ≠ (0, 0, 0) then min a (f w) else a) with h | ⟨v, hv, hne, h⟩
    · rw [h]
      split
      · rename_i hw
        rcases min_choice a (f w) with h1 | h1
        · exact Or.inl h1
        · exact Or.inr ⟨w, List.mem_cons_self, hw, h1⟩
      · exact Or.inl rfl
    · exact Or.inr ⟨v, List.mem_cons_of_mem _ hv, hne, h⟩

theorem dblMax_pos : 0 < dblMax := by
  unfold dblMax
  refine mul_pos ?_ (by positivity)
  have : ((2 : ℝ)⁻¹) ^ 52 ≤ 1 := pow_le_one₀ (by norm_num) (by norm_num)
  linarith

theorem lenSq_pos (hg : GridValid g) (v : ℤ × ℤ × ℤ) (hv : v ≠ (0, 0, 0)) : 0 < lenSq g v := by
  unfold lenSq
  refine lt_of_le_of_ne (Finset.sum_nonneg fun k _ => sq_nonneg _) fun h => hv ?_
  have h0 := (Finset.sum_eq_zero_iff_of_nonneg fun k _ => sq_nonneg _).1 h.symm
  obtain ⟨a, b, c⟩ := hg.indep v.1 v.2.1 v.2.2 fun k => pow_eq_zero_iff (two_ne_zero) |>.1 (h0 k (Finset.mem_univ k))
  refine Prod.ext ?_ (Prod.ext ?_ ?_)
  · exact_mod_cast a
  · exact_mod_cast b
  · exact_mod_cast c

theorem gminSq_pos (hg : GridValid g) : 0 < gminSq g := foldl_min_pos _ _ _ dblMax_pos fun v _ hv => lenSq_pos g hg v hv

theorem Gsq_nonneg (i : ℕ) : 0 ≤ PCM.Gsq g i := Finset.sum_nonneg fun _ _ => sq_nonneg _

theorem gsqReg_pos {Gsq Gmin kap : ℝ} (h1 : 0 ≤ Gsq) (h2 : 0 < Gmin) (h3 : 0 ≤ kap) : 0 < gsqReg Gsq Gmin kap := by
  unfold gsqReg
  split
  · rename_i h
    have := lt_of_le_of_ne h3 (Ne.symm h)
    linarith
  · exact lt_max_of_lt_right h2

theorem sat_pos {x q : ℝ} (hx : 0 < x) (hq : 0 ≤ q) : 0 < sat x q := by
  unfold sat
  split <;> positivity

theorem sat_le {x q : ℝ} (hx : 0 < x) (hq : 0 ≤ q) : sat x q ≤ 1 := by
  unfold sat
  split
  · rw [div_le_one (by positivity)]
    linarith
  · exact le_rfl

theorem kerker_pos (hg : GridValid g) (hp : ParamsValid p) (i : ℕ) : 0 < kerkerMix g p i :=
  mul_pos (sat_pos (gsqReg_pos (Gsq_nonneg g i) (gminSq_pos g hg) hp.kappa) (sq_nonneg _)) hp.mix

theorem metric_pos (hg : GridValid g) (hp : ParamsValid p) (i : ℕ) : 0 < diisMetric g p i := by
  have := sat_pos (gsqReg_pos (Gsq_nonneg g i) (gminSq_pos g hg) hp.kappa) (sq_nonneg p.qMetric)
  unfold diisMetric metricValue
  split
  · positivity
  · exact this

/-! ### Products with kernels -/

theorem conv_eq (K : ℕ → ℝ) (x : Field) (j : ℕ) : conv g K x j = ∑ j' ∈ Finset.range (nr g.S), (∑ i ∈ Finset.range (nG g.S),
    weight g.S i * K i / nr g.S * (conj (chi g.S i j') * chi g.S i j).re) * x j' := by
  unfold conv fftI wMul fftJ Idag
  simp only [Int.toNat_natCast]
  rw [show (∑ j' ∈ Finset.range (nr g.S), (∑ i ∈ Finset.range (nG g.S), weight g.S i * K i / nr g.S * (conj (chi g.S i j') * chi g.S i j).re) * x j') =
    ∑ i ∈ Finset.range (nG g.S), ∑ j' ∈ Finset.range (nr g.S), weight g.S i * K i / nr g.S * (conj (chi g.S i j') * chi g.S i j).re * x j' by
      rw [Finset.sum_comm]
      exact Finset.sum_congr rfl fun _ _ => Finset.sum_mul _ _ _]
  refine Finset.sum_congr rfl fun i _ => ?_
  simp only [Finset.mul_sum, Finset.sum_mul, Complex.re_sum]
  refine Finset.sum_congr rfl fun j' _ => ?_
  rw [show ((1 / (nr g.S : ℝ) : ℝ) : ℂ) * ((x j' : ℂ) * conj (chi g.S i j')) * (K i : ℂ) * chi g.S i j = ((1 / (nr g.S : ℝ) * x j' * K i : ℝ) : ℂ) * (conj (chi g.S i j') * chi g.S i j) by
    push_cast; ring, Complex.re_ofReal_mul]
  ring

theorem conv_add (K : ℕ → ℝ) (x y : Field) : conv g K (fun j => x j + y j) = fun j => conv g K x j + conv g K y j := by
  funext j
  simp only [conv_eq, mul_add, Finset.sum_add_distrib]

theorem conv_smul (K : ℕ → ℝ) (c : ℝ) (x : Field) : conv g K (fun j => c * x j) = fun j => c * conv g K x j := by
  funext j
  simp only [conv_eq, Finset.mul_sum]
  exact Finset.sum_congr rfl fun _ _ => by ring

theorem conv_congr (K : ℕ → ℝ) (x y : Field) (h : ∀ j < nr g.S, x j = y j) : conv g K x = conv g K y := by
  funext j
  simp only [conv_eq]
  exact Finset.sum_congr rfl fun j' hj => by rw [h j' (Finset.mem_range.1 hj)]

theorem conv_dot (hS : g.S.Pos) (K : ℕ → ℝ) (x y : Field) :
    ∑ j ∈ Finset.range (nr g.S), x j * conv g K y j = (nr g.S : ℝ) * ∑ i ∈ Finset.range (nG g.S), weight g.S i * K i * (conj (fftJ g.S x i) * fftJ g.S y i).re := by
  unfold conv
  rw [PCM.fftI_dp g.S hS, PCM.dp_eq]
  congr 1
  refine Finset.sum_congr rfl fun i _ => ?_
  have e : (conj (fftJ g.S x i) * wMul K (fftJ g.S y) i).re = K i * (conj (fftJ g.S x i) * fftJ g.S y i).re := by
    unfold wMul
    rw [Int.toNat_natCast, ← mul_assoc, mul_comm _ (K i : ℂ), Complex.re_ofReal_mul]
  rw [e, mul_assoc]

theorem conv_symm (hS : g.S.Pos) (K : ℕ → ℝ) (x y : Field) :
    ∑ j ∈ Finset.range (nr g.S), x j * conv g K y j = ∑ j ∈ Finset.range (nr g.S), y j * conv g K x j := by
  rw [conv_dot g hS, conv_dot g hS]
  congr 1
  refine Finset.sum_congr rfl fun i _ => ?_
  congr 1
  simp only [Complex.mul_re, Complex.conj_re, Complex.conj_im]
  ring

theorem weight_pos (i : ℕ) : 0 < weight g.S i := by
  unfold weight
  split <;> norm_num

theorem conv_nonneg (hS : g.S.Pos) (K : ℕ → ℝ) (hK : ∀ i, 0 < K i) (x : Field) :
    0 ≤ ∑ j ∈ Finset.range (nr g.S), x j * conv g K x j ∧ (∑ j ∈ Finset.range (nr g.S), x j * conv g K x j = 0 → ∀ j < nr g.S, x j = 0) := by
  rw [conv_dot g hS]
  have e : ∀ i : ℕ, (conj (fftJ g.S x i) * fftJ g.S x i).re = Complex.normSq (fftJ g.S x i) := fun i => by
    rw [← Complex.normSq_eq_conj_mul_self, Complex.ofReal_re]
  have hn : (0 : ℝ) < nr g.S := by exact_mod_cast nr_pos g.S hS
  have h0 : ∀ i ∈ Finset.range (nG g.S), 0 ≤ weight g.S i * K i * Complex.normSq (fftJ g.S x i) := fun i _ =>
    mul_nonneg (mul_nonneg (weight_pos g i).le (hK i).le) (Complex.normSq_nonneg _)
  simp only [e]
  refine ⟨mul_nonneg hn.le (Finset.sum_nonneg h0), fun h j hj => ?_⟩
  have h1 := (Finset.sum_eq_zero_iff_of_nonneg h0).1 ((mul_eq_zero.1 h).resolve_left hn.ne')
  have h2 : ∀ i < nG g.S, fftJ g.S x i = 0 := fun i hi => by
    have := h1 i (Finset.mem_range.2 hi)
    exact Complex.normSq_eq_zero.1 ((mul_eq_zero.1 this).resolve_left (mul_pos (weight_pos g i) (hK i)).ne')
  rw [← fftI_fftJ g.S hS x j hj]
  unfold fftI
  refine Finset.sum_eq_zero fun i hi => ?_
  rw [h2 i (Finset.mem_range.1 hi), zero_mul, Complex.zero_re, mul_zero]

end
end Jdftx.SCF
