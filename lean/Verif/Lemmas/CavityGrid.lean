import Verif.Model.CavityGrid
import Verif.Lemmas.Cavity
import Verif.Lemmas.ExCorr
import Verif.Lemmas.HalfFFT
import Verif.Lemmas.BoxField
import Mathlib.Analysis.SpecialFunctions.Sqrt
import Mathlib.Analysis.Calculus.Deriv.Abs

/-!
# Lemmas about the cavity shape functions that depend on gradients
-/
namespace Jdftx.Cavity
open Box ExCorr Filter Topology
open ComplexConjugate
noncomputable section

theorem ite_deriv {P : ℝ → Prop} [DecidablePred P] {f g : ℝ → ℝ} {f' x : ℝ} (hf : HasDerivAt f f' x) (hg : HasDerivAt g f' x) (e : f x = g x) :
    HasDerivAt (fun t => if P t then f t else g t) f' x := by
  have h1 : HasDerivWithinAt (fun t => if P t then f t else g t) f' {t | P t} x :=
    hf.hasDerivWithinAt.congr (fun t ht => if_pos ht) (by by_cases h : P x <;> simp [h, e])
  have h2 : HasDerivWithinAt (fun t => if P t then f t else g t) f' {t | ¬P t} x :=
    hg.hasDerivWithinAt.congr (fun t ht => if_neg ht) (by by_cases h : P x <;> simp [h, e])
  have h3 := h1.union h2
  rwa [show {t | P t} ∪ {t | ¬P t} = Set.univ by ext t; simp [em], hasDerivWithinAt_univ] at h3

/-! ### One point -/

def tanhSq (x : ℝ) : ℝ := (Real.exp (2 * x * x) - 1) * (1 / (1 + Real.exp (2 * x * x)))

theorem tanhSq_deriv (x : ℝ) :
    HasDerivAt tanhSq (8 * x * Real.exp (2 * x * x) * (1 / (1 + Real.exp (2 * x * x))) * (1 / (1 + Real.exp (2 * x * x)))) x := by
  have h0 : HasDerivAt (fun x : ℝ => Real.exp (2 * x * x)) (Real.exp (2 * x * x) * (4 * x)) x := by
    refine ((((hasDerivAt_id x).const_mul 2).mul (hasDerivAt_id x)).exp).congr_deriv ?_
    simp; ring_nf
  have hp : 1 + Real.exp (2 * x * x) ≠ 0 := by positivity
  have h := (h0.sub_const 1).mul (((hasDerivAt_const x (1 : ℝ)).div (h0.const_add 1)) hp)
  refine h.congr_deriv ?_
  simp only [Pi.div_apply]
  generalize Real.exp (2 * x * x) = e at hp ⊢
  field_simp; ring

theorem asymm_deriv (x : ℝ) (hx : x ≠ 4) : HasDerivAt asymm (asymm_x x) x := by
  rcases lt_or_gt_of_ne hx with h | h
  · have e : asymm =ᶠ[𝓝 x] fun y => if y > 0 then tanhSq y else 0 := by
      filter_upwards [isOpen_Iio.mem_nhds h] with y hy
      have hy : y < 4 := hy
      unfold asymm; rw [if_neg (not_lt.2 hy.le)]; rfl
    refine HasDerivAt.congr_of_eventuallyEq ?_ e
    unfold asymm_x
    rw [if_neg (not_lt.2 h.le)]
    rcases lt_trichotomy x 0 with h0 | h0 | h0
    · rw [if_neg (not_lt.2 h0.le)]
      refine (hasDerivAt_const x (0 : ℝ)).congr_of_eventuallyEq ?_
      filter_upwards [isOpen_Iio.mem_nhds h0] with y hy
      have hy : y < 0 := hy
      rw [if_neg (not_lt.2 hy.le)]
    · subst h0
      rw [if_neg (lt_irrefl _)]
      exact ite_deriv ((tanhSq_deriv 0).congr_deriv (by ring)) (hasDerivAt_const 0 0) (by simp [tanhSq])
    · rw [if_pos h0]
      refine (tanhSq_deriv x).congr_of_eventuallyEq ?_
      filter_upwards [isOpen_Ioi.mem_nhds h0] with y hy
      have hy : 0 < y := hy
      rw [if_pos hy]
  · unfold asymm_x
    rw [if_pos h]
    refine (hasDerivAt_const x (1 : ℝ)).congr_of_eventuallyEq ?_
    filter_upwards [isOpen_Ioi.mem_nhds h] with y hy
    have hy : 4 < y := hy
    unfold asymm; rw [if_pos hy]

theorem eDotE_deriv (nc : ℝ) (hnc : 0 < nc) (Dn Dphi : ℝ → Fin 3 → ℝ) (Dn' Dphi' : Fin 3 → ℝ) (t : ℝ)
    (hD : ∀ k, HasDerivAt (fun t => Dn t k) (Dn' k) t) (hP : ∀ k, HasDerivAt (fun t => Dphi t k) (Dphi' k) t) :
    HasDerivAt (fun t => eDotE nc (Dn t) (Dphi t))
      (dot3 (fun k => normFac nc (Dn t) * (-Dphi t k - eVec nc (Dn t) k * eDotE nc (Dn t) (Dphi t))) Dn'
        + dot3 (fun k => -eVec nc (Dn t) k) Dphi') t := by
  have hpos : 0 < dot3 (Dn t) (Dn t) + 1e-4 * nc * nc := by
    have : 0 ≤ dot3 (Dn t) (Dn t) := by unfold dot3; nlinarith [mul_self_nonneg (Dn t 0), mul_self_nonneg (Dn t 1), mul_self_nonneg (Dn t 2)]
    positivity
  have hsq : HasDerivAt (fun t => dot3 (Dn t) (Dn t) + 1e-4 * nc * nc) (2 * dot3 (Dn t) Dn') t := by
    have := ((((hD 0).mul (hD 0)).add ((hD 1).mul (hD 1))).add ((hD 2).mul (hD 2))).add_const (1e-4 * nc * nc)
    refine this.congr_deriv ?_
    unfold dot3; ring
  have hs := hsq.sqrt hpos.ne'
  have hsp : 0 < Real.sqrt (dot3 (Dn t) (Dn t) + 1e-4 * nc * nc) := Real.sqrt_pos.2 hpos
  have hnf : HasDerivAt (fun t => normFac nc (Dn t)) (-(normFac nc (Dn t)) ^ 3 * dot3 (Dn t) Dn') t := by
    refine ((hasDerivAt_const t (1 : ℝ)).div hs hsp.ne').congr_deriv ?_
    unfold normFac
    generalize hq : Real.sqrt (dot3 (Dn t) (Dn t) + 1e-4 * nc * nc) = q at hsp ⊢
    field_simp; ring
  have h := (((((hD 0).mul hnf).mul (hP 0).neg).add (((hD 1).mul hnf).mul (hP 1).neg)).add (((hD 2).mul hnf).mul (hP 2).neg))
  refine h.congr_deriv ?_
  unfold eDotE eVec dot3
  simp only [Pi.mul_apply, Pi.neg_apply]
  generalize normFac nc (Dn t) = q
  ring

/-- The part of the argument of `erfc` that depends on the electric field. -/
theorem shift_deriv (c p : ℝ → ℝ) (c' p' t : ℝ) (hc : HasDerivAt c c' t) (hp : HasDerivAt p p' t) (hx : -|p t| * c t ≠ 4) :
    HasDerivAt (fun t => copysign 3 (p t) * asymm (-|p t| * c t))
      (copysign 3 (p t) * asymm_x (-|p t| * c t) * (-|p t| * c' - copysign 1 (p t) * c t * p')) t := by
  have hneg : p t ≤ 0 → HasDerivAt (fun t => -3 * asymm (p t * c t)) (-3 * (asymm_x (p t * c t) * (p' * c t + p t * c'))) t := by
    intro h
    have hx' : p t * c t ≠ 4 := by rwa [abs_of_nonpos h, neg_neg] at hx
    exact ((asymm_deriv _ hx').comp (h := fun t => p t * c t) t (hp.mul hc)).const_mul (-3)
  have hpos : 0 ≤ p t → HasDerivAt (fun t => 3 * asymm (-p t * c t)) (3 * (asymm_x (-p t * c t) * (-p' * c t + -p t * c'))) t := by
    intro h
    have hx' : -p t * c t ≠ 4 := by rwa [abs_of_nonneg h] at hx
    exact ((asymm_deriv _ hx').comp (h := fun t => -p t * c t) t (hp.neg.mul hc)).const_mul 3
  have e : (fun t => copysign 3 (p t) * asymm (-|p t| * c t)) = fun t => if p t < 0 then -3 * asymm (p t * c t) else 3 * asymm (-p t * c t) := by
    funext s
    unfold copysign
    by_cases h : p s < 0
    · rw [if_pos h, if_pos h, abs_of_neg h, neg_neg]
    · rw [if_neg h, if_neg h, abs_of_nonneg (not_lt.1 h)]
  rw [e]
  rcases lt_trichotomy (p t) 0 with h | h | h
  · refine ((hneg h.le).congr_of_eventuallyEq ?_).congr_deriv ?_
    · filter_upwards [hp.continuousAt.eventually (isOpen_Iio.mem_nhds h)] with s hs
      have hs : p s < 0 := hs
      rw [if_pos hs]
    · unfold copysign; rw [if_pos h, if_pos h, abs_of_neg h, neg_neg]; ring
  · have z : asymm_x 0 = 0 := by unfold asymm_x; norm_num
    refine ite_deriv ((hneg h.le).congr_deriv ?_) ((hpos h.ge).congr_deriv ?_) (by norm_num [h, asymm])
    · simp [h, z]
    · simp [h, z]
  · refine ((hpos h.le).congr_of_eventuallyEq ?_).congr_deriv ?_
    · filter_upwards [hp.continuousAt.eventually (isOpen_Ioi.mem_nhds h)] with s hs
      have hs : 0 < p s := hs
      rw [if_neg (not_lt.2 hs.le)]
    · unfold copysign; rw [if_neg (not_lt.2 h.le), if_neg (not_lt.2 h.le), abs_of_pos h]; ring

theorem candle_deriv (nc invS : ℝ) (hnc : 0 < nc) (n p : ℝ → ℝ) (Dn Dphi : ℝ → Fin 3 → ℝ) (n' p' : ℝ) (Dn' Dphi' : Fin 3 → ℝ) (t : ℝ)
    (hn : HasDerivAt n n' t) (hp : HasDerivAt p p' t) (hD : ∀ k, HasDerivAt (fun t => Dn t k) (Dn' k) t)
    (hP : ∀ k, HasDerivAt (fun t => Dphi t k) (Dphi' k) t) (h8 : n t ≠ 1e-8) (h4 : 1e-8 < n t → xOf nc (p t) (Dn t) (Dphi t) ≠ 4) (A : ℝ) :
    HasDerivAt (fun t => A * candle nc invS (p t) (n t) (Dn t) (Dphi t))
      (A_n nc invS (p t) (n t) (Dn t) (Dphi t) A * n' + dot3 (A_Dn nc invS (p t) (n t) (Dn t) (Dphi t) A) Dn'
        + dot3 (A_Dphi nc invS (p t) (n t) (Dn t) (Dphi t) A) Dphi' + A_p nc invS (p t) (n t) (Dn t) (Dphi t) A * p') t := by
  rcases lt_or_gt_of_ne h8 with h | h
  · have z : A_n nc invS (p t) (n t) (Dn t) (Dphi t) A * n' + dot3 (A_Dn nc invS (p t) (n t) (Dn t) (Dphi t) A) Dn'
        + dot3 (A_Dphi nc invS (p t) (n t) (Dn t) (Dphi t) A) Dphi' + A_p nc invS (p t) (n t) (Dn t) (Dphi t) A * p' = 0 := by
      simp only [A_n, A_Dn, A_Dphi, A_p, dot3, if_pos h]; ring
    rw [z]
    refine (hasDerivAt_const t (A * 1)).congr_of_eventuallyEq ?_
    filter_upwards [hn.continuousAt.eventually (isOpen_Iio.mem_nhds h)] with s hs
    have hs : n s < 1e-8 := hs
    unfold candle; rw [if_pos hs]
  · have hn0 : 0 < n t := lt_trans (by norm_num) h
    have hlog : HasDerivAt (fun t => Real.log (n t / nc)) (n' / n t) t := by
      refine ((hn.div_const nc).log (by positivity)).congr_deriv ?_
      field_simp
    have hsh := shift_deriv _ p _ p' t (eDotE_deriv nc hnc Dn Dphi Dn' Dphi' t hD hP) hp (h4 h)
    have hcomb := hlog.sub hsh
    have hE := ((Smear.erfc_deriv _).comp (h := fun t => invS * comb nc (p t) (n t) (Dn t) (Dphi t)) t (hcomb.const_mul invS)).const_mul (A * 0.5)
    refine (hE.congr_of_eventuallyEq ?_).congr_deriv ?_
    · filter_upwards [hn.continuousAt.eventually (isOpen_Ioi.mem_nhds h)] with s hs
      have hs : 1e-8 < n s := hs
      unfold candle; rw [if_neg (not_lt.2 hs.le)]
      simp only [Function.comp]; ring
    · simp only [A_n, A_Dn, A_Dphi, A_p, A_x, A_comb, dot3, if_neg (not_lt.2 h.le), xOf]
      have ee : -(invS * comb nc (p t) (n t) (Dn t) (Dphi t)) ^ 2
          = -comb nc (p t) (n t) (Dn t) (Dphi t) * comb nc (p t) (n t) (Dn t) (Dphi t) * invS * invS := by ring
      rw [ee]
      generalize Real.exp (-comb nc (p t) (n t) (Dn t) (Dphi t) * comb nc (p t) (n t) (Dn t) (Dphi t) * invS * invS) = ex
      generalize asymm_x (-|p t| * eDotE nc (Dn t) (Dphi t)) = ax
      generalize eDotE nc (Dn t) (Dphi t) = ed
      generalize normFac nc (Dn t) = nf
      generalize eVec nc (Dn t) = ev
      generalize copysign 3 (p t) = c3
      generalize copysign 1 (p t) = c1
      generalize |p t| = ap
      generalize Dphi t = dp
      have hpi : Real.sqrt Real.pi ≠ 0 := (Real.sqrt_pos.2 Real.pi_pos).ne'
      generalize Real.sqrt Real.pi = pi at hpi ⊢
      have : n t ≠ 0 := hn0.ne'
      generalize n t = nn at this ⊢
      field_simp
      ring

/-! ### Fourier transforms -/

theorem fftI_congr (S : Size) (X Y : Arr) (h : ∀ i < nG S, X i = Y i) : fftI S X = fftI S Y := by
  funext j
  exact Finset.sum_congr rfl fun i hi => by rw [h i (Finset.mem_range.1 hi)]

/-- The multiplier of component `k` of the gradient. -/
def Mgrad (S : Size) (G : Fin 3 → Fin 3 → ℝ) (k : Fin 3) (i : Nat) : ℂ := (gvec G (hStart S i) k : ℂ) * iota S (hStart S i)

theorem gradient_at (S : Size) (hS : S.Pos) (G : Fin 3 → Fin 3 → ℝ) (X : Arr) (k : Fin 3) (i : Nat) (hi : i < nG S) :
    gradient S G X k i = mult (Mgrad S G k) X i := by
  unfold gradient
  rw [halfMap_get S hS _ i hi]
  simp only [mult, Mgrad, Int.toNat_natCast]; ring

theorem divergence_at (S : Size) (hS : S.Pos) (G : Fin 3 → Fin 3 → ℝ) (V : Fin 3 → Arr) (i : Nat) (hi : i < nG S) :
    divergence S G V i = ∑ k, mult (Mgrad S G k) (V k) i := by
  unfold divergence
  rw [halfMap_get S hS _ i hi]
  simp only [Fin.sum_univ_three, mult, Mgrad, Int.toNat_natCast]; ring

theorem Mgrad_conj (S : Size) (G : Fin 3 → Fin 3 → ℝ) (k : Fin 3) (i : Nat) : conj (Mgrad S G k i) = -Mgrad S G k i := by
  unfold Mgrad iota
  rw [map_mul, Complex.conj_ofReal]
  have : conj (⟨0, if isNyquist S (hStart S i) then 0 else 1⟩ : ℂ) = -⟨0, if isNyquist S (hStart S i) then 0 else 1⟩ := by
    apply Complex.ext <;> simp
  rw [this]; ring

theorem Idag_moved (S : Size) (f d : Field) (t : ℝ) :
    Idag S (fun j => f j + t * d j) = fun i => Idag S f i + (t : ℂ) * Idag S d i := by
  funext i
  simp only [Idag, Finset.mul_sum, ← Finset.sum_add_distrib]
  refine Finset.sum_congr rfl fun j _ => ?_
  push_cast; ring

theorem fftI_moved (S : Size) (X Y : Arr) (t : ℝ) (j : Nat) : fftI S (fun i => X i + (t : ℂ) * Y i) j = fftI S X j + t * fftI S Y j := by
  rw [fftI_add, fftI_smul]

theorem gradPhi_moved (g : Grid) (hS : g.S.Pos) (X Y : Arr) (t : ℝ) (k : Fin 3) (j : Nat) :
    gradPhi g (fun i => X i + (t : ℂ) * Y i) k j = gradPhi g X k j + t * gradPhi g Y k j := by
  unfold gradPhi
  rw [← fftI_moved]
  refine congrFun (fftI_congr _ _ _ fun i hi => ?_) j
  rw [gradient_at _ hS _ _ _ _ hi, gradient_at _ hS _ _ _ _ hi, gradient_at _ hS _ _ _ _ hi]
  simp only [mult]; ring

theorem grad_moved (g : Grid) (hS : g.S.Pos) (f d : Field) (t : ℝ) (k : Fin 3) (j : Nat) :
    grad g (fun j => f j + t * d j) k j = grad g f k j + t * grad g d k j := by
  have := gradPhi_moved g hS (fftJ g.S f) (fftJ g.S d) t k j
  rw [← fftJ_moved] at this
  exact this

theorem grad_adjoint (g : Grid) (hS : g.S.Pos) (v : Fin 3 → Field) (d : Field) :
    ∑ j ∈ Finset.range (nr g.S), dot3 (fun k => v k j) (fun k => grad g d k j) = -∑ j ∈ Finset.range (nr g.S), div g v j * d j := by
  have e1 : ∀ k, ∑ j ∈ Finset.range (nr g.S), v k j * grad g d k j
      = ∑ j ∈ Finset.range (nr g.S), -fftI g.S (mult (Mgrad g.S g.G k) (fftJ g.S (v k))) j * d j := by
    intro k
    unfold grad
    rw [fftI_congr g.S _ _ (fun i hi => gradient_at g.S hS g.G (fftJ g.S d) k i hi), mult_adjoint]
    refine Finset.sum_congr rfl fun j _ => ?_
    congr 1
    unfold Jdag
    rw [← fftI_smul, ← fftI_neg]
    congr 1; funext i
    simp only [mult, Mgrad_conj, fftJ]; ring
  have e2 : ∀ j, div g v j = ∑ k, fftI g.S (mult (Mgrad g.S g.G k) (fftJ g.S (v k))) j := by
    intro j
    unfold div
    rw [fftI_congr g.S _ (fun i => ∑ k, mult (Mgrad g.S g.G k) (fftJ g.S (v k)) i) (fun i hi => divergence_at g.S hS g.G _ i hi), fftI_sum]
  simp only [dot3, Finset.sum_add_distrib, e1, e2, Fin.sum_univ_three, ← Finset.sum_neg_distrib]
  rw [← Finset.sum_add_distrib, ← Finset.sum_add_distrib]
  refine Finset.sum_congr rfl fun j _ => ?_
  ring

theorem gradPhi_adjoint (g : Grid) (hS : g.S.Pos) (v : Fin 3 → Field) (X : Arr) :
    ∑ j ∈ Finset.range (nr g.S), dot3 (fun k => v k j) (fun k => gradPhi g X k j)
      = -((nr g.S : ℝ) * ∑ i ∈ Finset.range (nG g.S), weight g.S i * (conj (divergence g.S g.G (fun k => fftJ g.S (v k)) i) * X i).re) := by
  have hn : (nr g.S : ℝ) ≠ 0 := by
    have : 0 < nr g.S := by unfold nr; exact Nat.mul_pos (Nat.mul_pos hS.1 hS.2.1) hS.2.2
    exact_mod_cast this.ne'
  have e1 : ∀ k, ∑ j ∈ Finset.range (nr g.S), v k j * gradPhi g X k j
      = -((nr g.S : ℝ) * ∑ i ∈ Finset.range (nG g.S), weight g.S i * (conj (mult (Mgrad g.S g.G k) (fftJ g.S (v k)) i) * X i).re) := by
    intro k
    unfold gradPhi
    rw [fftI_adjoint, Finset.mul_sum, ← Finset.sum_neg_distrib]
    refine Finset.sum_congr rfl fun i hi => ?_
    rw [gradient_at _ hS _ _ _ _ (Finset.mem_range.1 hi)]
    simp only [mult, fftJ, map_mul, Mgrad_conj, Complex.conj_ofReal]
    have e : (((1 / (nr g.S : ℝ) : ℝ) : ℂ) * conj (Idag g.S (v k) i) * -Mgrad g.S g.G k (i : Int).toNat * X i)
        = ((1 / (nr g.S : ℝ) : ℝ) : ℂ) * (-(conj (Idag g.S (v k) i) * (X i * Mgrad g.S g.G k (i : Int).toNat))) := by ring
    rw [e, Complex.re_ofReal_mul, Complex.neg_re]
    field_simp
  simp only [dot3, Finset.sum_add_distrib, e1]
  rw [← neg_add, ← neg_add, ← mul_add, ← mul_add, ← Finset.sum_add_distrib, ← Finset.sum_add_distrib]
  congr 2
  refine Finset.sum_congr rfl fun i hi => ?_
  rw [divergence_at _ hS _ _ _ (Finset.mem_range.1 hi), Fin.sum_univ_three, map_add, map_add, add_mul, add_mul, Complex.add_re, Complex.add_re]
  ring

end
end Jdftx.Cavity
