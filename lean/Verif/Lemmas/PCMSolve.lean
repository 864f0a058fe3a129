import Verif.Model.PCMSolve
import Verif.Lemmas.NonlinearPCM
import Verif.Props.HalfFFT
import Verif.Props.CavityGrid
import Mathlib.Analysis.Complex.RealDeriv
import Mathlib.Analysis.Calculus.Deriv.Star

/-! Lemmas for C81 and C82. -/
namespace Jdftx.PCM
open Box ExCorr Cavity
open scoped ComplexConjugate
noncomputable section

theorem dp_eq (S : Size) (X Y : Arr) : dotPairs S X Y = ∑ i ∈ Finset.range (nG S), weight S i * (conj (X i) * Y i).re := rfl

theorem dp_congr (S : Size) {X X' Y Y' : Arr} (hX : ∀ i < nG S, X i = X' i) (hY : ∀ i < nG S, Y i = Y' i) : dotPairs S X Y = dotPairs S X' Y' := by
  rw [dp_eq, dp_eq]
  exact Finset.sum_congr rfl fun i hi => by rw [hX i (Finset.mem_range.1 hi), hY i (Finset.mem_range.1 hi)]

theorem dp_comm (S : Size) (X Y : Arr) : dotPairs S X Y = dotPairs S Y X := by
  rw [dp_eq, dp_eq]
  refine Finset.sum_congr rfl fun i _ => ?_
  congr 1
  simp only [Complex.mul_re, Complex.conj_re, Complex.conj_im]; ring

theorem dp_add (S : Size) (X Y Z : Arr) : dotPairs S X (fun i => Y i + Z i) = dotPairs S X Y + dotPairs S X Z := by
  simp only [dp_eq, ← Finset.sum_add_distrib]
  refine Finset.sum_congr rfl fun i _ => ?_
  simp only [mul_add, Complex.add_re]

theorem dp_sub (S : Size) (X Y Z : Arr) : dotPairs S X (fun i => Y i - Z i) = dotPairs S X Y - dotPairs S X Z := by
  simp only [dp_eq, ← Finset.sum_sub_distrib]
  refine Finset.sum_congr rfl fun i _ => ?_
  simp only [mul_sub, Complex.sub_re]

theorem dp_mul (S : Size) (X Y : Arr) (c : Nat → ℝ) :
    dotPairs S X (fun i => (c i.toNat : ℂ) * Y i) = dotPairs S (fun i => (c i.toNat : ℂ) * X i) Y := by
  simp only [dp_eq]
  refine Finset.sum_congr rfl fun i _ => ?_
  simp only [map_mul, Complex.conj_ofReal]
  congr 2; ring

theorem dp_smul (S : Size) (X Y : Arr) (c : ℝ) : dotPairs S X (fun i => (c : ℂ) * Y i) = c * dotPairs S X Y := by
  simp only [dp_eq, Finset.mul_sum]
  refine Finset.sum_congr rfl fun i _ => ?_
  rw [show conj (X i) * ((c : ℂ) * Y i) = (c : ℂ) * (conj (X i) * Y i) by ring, Complex.re_ofReal_mul]; ring

theorem dp_sub' (S : Size) (X Y Z : Arr) : dotPairs S (fun i => Y i - Z i) X = dotPairs S Y X - dotPairs S Z X := by
  rw [dp_comm, dp_sub, dp_comm S X Y, dp_comm S X Z]

theorem dp_add' (S : Size) (X Y Z : Arr) : dotPairs S (fun i => Y i + Z i) X = dotPairs S Y X + dotPairs S Z X := by
  rw [dp_comm, dp_add, dp_comm S X Y, dp_comm S X Z]

theorem dp_smul' (S : Size) (X Y : Arr) (c : ℝ) : dotPairs S (fun i => (c : ℂ) * X i) Y = c * dotPairs S X Y := by
  rw [dp_comm, dp_smul, dp_comm]

theorem dp_deriv (S : Size) (X Y : ℝ → Arr) (X' Y' : Arr) (t : ℝ) (hX : ∀ i < nG S, HasDerivAt (fun t => X t i) (X' i) t)
    (hY : ∀ i < nG S, HasDerivAt (fun t => Y t i) (Y' i) t) :
    HasDerivAt (fun t => dotPairs S (X t) (Y t)) (dotPairs S X' (Y t) + dotPairs S (X t) Y') t := by
  simp only [dp_eq, ← Finset.sum_add_distrib]
  refine HasDerivAt.fun_sum fun i hi => ?_
  have hi := Finset.mem_range.1 hi
  have h := (hX i hi).star.mul (hY i hi)
  have h2 := (Complex.reCLM.hasFDerivAt.comp_hasDerivAt t h).const_mul (weight S i)
  refine (h2.congr_deriv ?_)
  simp only [Complex.reCLM_apply, Complex.add_re, mul_add, ← Complex.star_def]

theorem fftI_deriv (S : Size) (X : ℝ → Arr) (X' : Arr) (t : ℝ) (hX : ∀ i < nG S, HasDerivAt (fun t => X t i) (X' i) t) (j : Nat) :
    HasDerivAt (fun t => fftI S (X t) j) (fftI S X' j) t := by
  unfold fftI
  refine HasDerivAt.fun_sum fun i hi => ?_
  have h := (Complex.reCLM.hasFDerivAt.comp_hasDerivAt t ((hX i (Finset.mem_range.1 hi)).mul_const (chi S i j))).const_mul (weight S i)
  exact h

theorem gradPhi_deriv (g : Grid) (hS : g.S.Pos) (X : ℝ → Arr) (X' : Arr) (t : ℝ) (hX : ∀ i < nG g.S, HasDerivAt (fun t => X t i) (X' i) t) (k : Fin 3) (j : Nat) :
    HasDerivAt (fun t => gradPhi g (X t) k j) (gradPhi g X' k j) t := by
  unfold gradPhi
  refine fftI_deriv g.S _ _ t (fun i hi => ?_) j
  simp only [gradient_at g.S hS g.G _ k i hi, mult, Int.toNat_natCast]
  exact (hX i hi).mul_const _

theorem fftI_dp (S : Size) (hS : S.Pos) (u : Field) (X : Arr) :
    ∑ j ∈ Finset.range (nr S), u j * fftI S X j = (nr S : ℝ) * dotPairs S (fftJ S u) X := by
  have hn : (nr S : ℝ) ≠ 0 := by exact_mod_cast (nr_pos S hS).ne'
  rw [fftI_adjoint]
  unfold fftJ
  rw [dp_smul' S (Idag S u) X, ← mul_assoc, mul_one_div_cancel hn, one_mul]; rfl

theorem gradPhi_dp (g : Grid) (hS : g.S.Pos) (v : Fin 3 → Field) (X : Arr) :
    ∑ j ∈ Finset.range (nr g.S), dot3 (fun k => v k j) (fun k => gradPhi g X k j)
      = -((nr g.S : ℝ) * dotPairs g.S (divergence g.S g.G (fun k => fftJ g.S (v k))) X) := gradPhi_adjoint g hS v X

/-- The Coulomb operator is a real multiplier. -/
def coulombMul (g : Grid) (i : Nat) : ℝ := if i = 0 then 0 else (-4 * Real.pi) * ((-1 / g.detR) * g.detR / Gsq g i)

theorem coulomb_at (g : Grid) (rho : Arr) (i : Nat) : coulomb g rho i = (coulombMul g i : ℂ) * rho i := by
  unfold coulomb opLinv opO coulombMul
  by_cases h : i = 0
  · subst h; simp
  · rw [if_neg (by exact_mod_cast h), if_neg h, Int.toNat_natCast]; push_cast; ring

theorem coulomb_dp (g : Grid) (X Y : Arr) : dotPairs g.S X (coulomb g Y) = dotPairs g.S (coulomb g X) Y := by
  rw [dp_congr g.S (Y' := fun i => (coulombMul g i.toNat : ℂ) * Y i) (fun _ _ => rfl) (fun i _ => coulomb_at g Y i),
    dp_congr g.S (X' := fun i => (coulombMul g i.toNat : ℂ) * X i) (fun i _ => coulomb_at g X i) (fun _ _ => rfl)]
  exact dp_mul g.S X Y (coulombMul g)

theorem coulomb_deriv (g : Grid) (X : ℝ → Arr) (X' : Arr) (t : ℝ) (hX : ∀ i < nG g.S, HasDerivAt (fun t => X t i) (X' i) t) :
    ∀ i < nG g.S, HasDerivAt (fun t => coulomb g (X t) i) (coulomb g X' i) t := by
  intro i hi
  simp only [coulomb_at]
  exact (hX i hi).const_mul _

theorem opL_dp (g : Grid) (X Y : Arr) : dotPairs g.S X (opL g Y) = dotPairs g.S (opL g X) Y := by
  have e : ∀ Z : Arr, opL g Z = fun i => ((-g.detR * Gsq g i.toNat : ℝ) : ℂ) * Z i := fun Z => by funext i; unfold opL Gsq; ring
  rw [e, e]
  exact dp_mul g.S X Y fun i => -g.detR * Gsq g i

theorem opL_deriv (g : Grid) (X : ℝ → Arr) (X' : Arr) (t : ℝ) (hX : ∀ i < nG g.S, HasDerivAt (fun t => X t i) (X' i) t) :
    ∀ i < nG g.S, HasDerivAt (fun t => opL g (X t) i) (opL g X' i) t := by
  intro i hi
  unfold opL
  exact (hX i hi).mul_const _

theorem dp_wMul (S : Size) (w : Nat → ℝ) (X Y : Arr) : dotPairs S X (wMul w Y) = dotPairs S (wMul w X) Y := by
  have e : ∀ Z : Arr, wMul w Z = fun i => ((w i.toNat : ℝ) : ℂ) * Z i := fun Z => by funext i; unfold wMul; ring
  rw [e, e]
  exact dp_mul S X Y w

theorem wMul_deriv (S : Size) (w : Nat → ℝ) (X : ℝ → Arr) (X' : Arr) (t : ℝ) (hX : ∀ i < nG S, HasDerivAt (fun t => X t i) (X' i) t) :
    ∀ i < nG S, HasDerivAt (fun t => wMul w (X t) i) (wMul w X' i) t := fun i hi => (hX i hi).mul_const _

theorem fftJ_deriv (S : Size) (f : ℝ → Field) (f' : Field) (t : ℝ) (hf : ∀ j < nr S, HasDerivAt (fun t => f t j) (f' j) t) (i : Int) :
    HasDerivAt (fun t => fftJ S (f t) i) (fftJ S f' i) t := by
  unfold fftJ Idag
  refine (HasDerivAt.fun_sum fun j hj => ?_).const_mul _
  exact ((hf j (Finset.mem_range.1 hj)).ofReal_comp).mul_const _

/-- The form of the linear response operator. -/
theorem hessian_form (g : Grid) (ok : GridOK g) (p : Linear) (s0 sb : Field) (phi psi : Arr) :
    g.detR * dotPairs g.S psi (p.hessian g s0 sb phi) = (1 / (4 * Real.pi)) * (g.dV * ∑ j ∈ Finset.range (nr g.S),
      (dot3 (fun k => p.epsilon k (s0 j) * gradPhi g phi k j) (fun k => gradPhi g psi k j) + p.k2factor * sb j * fftI g.S phi j * fftI g.S psi j)) := by
  rw [Finset.sum_add_distrib, gradPhi_dp g ok.1 (fun k j => p.epsilon k (s0 j) * gradPhi g phi k j),
    fftI_dp g.S ok.1 (fun j => p.k2factor * sb j * fftI g.S phi j), ← ok.2]
  unfold Linear.hessian
  rw [dp_smul]
  by_cases h : p.k2factor = 0
  · simp only [h, ne_eq, not_true_eq_false, if_false, zero_mul]
    have z : dotPairs g.S (fftJ g.S fun _ => 0) psi = 0 := by
      rw [dp_eq]
      refine Finset.sum_eq_zero fun i _ => ?_
      simp [fftJ, Idag]
    rw [z, dp_comm g.S psi]; ring
  · simp only [ne_eq, h, not_false_eq_true, if_true]
    rw [dp_sub, dp_comm g.S psi, dp_comm g.S psi]; ring

theorem dot_opO (g : Grid) (X Y : Arr) : dotPairs g.S X (opO g Y) = g.detR * dotPairs g.S X Y := dp_smul g.S X Y g.detR

end
end Jdftx.PCM
