import Verif.Lemmas.CavityGrid

/-!
# C77: cavity shape functions that depend on gradients (CANDLE and SGA13)
-/
namespace Jdftx.Cavity
open Box ExCorr Filter Topology
open ComplexConjugate
noncomputable section

/-! ### Specification -/

/-- `A` is the functional derivative of `E` at the field `s`: along every curve of fields through `s`, the rate of change of
`E` is the integral of `A` times the rate of change of the field. -/
def FuncDeriv (g : Grid) (E : Field → ℝ) (A : Field) (s : Field) : Prop :=
  ∀ (c : ℝ → Field) (c' : Field), c 0 = s → (∀ j < nr g.S, HasDerivAt (fun t => c t j) (c' j) 0) →
    HasDerivAt (fun t => E (c t)) (g.dV * ∑ j ∈ Finset.range (nr g.S), A j * c' j) 0

/-- Inner product of two real fields, given by their Fourier components: the integral of their product over the cell,
divided by its volume. -/
def innerTilde (g : Grid) (X Y : Arr) : ℝ := ∑ i ∈ Finset.range (nG g.S), weight g.S i * (conj (X i) * Y i).re

/-- The spacing of grid points. -/
def GridOK (g : Grid) : Prop := g.S.Pos ∧ g.dV * nr g.S = g.detR

/-! ### CANDLE -/

/-- **C77 (range).** The shape function lies in (0, 1], whatever density, electric field and asymmetry parameter. -/
theorem C77_range (g : Grid) (nc sigma p : ℝ) (n : Field) (phi : Arr) (j : Nat) :
    0 < candleShape g nc sigma p n phi j ∧ candleShape g nc sigma p n phi j ≤ 1 := by
  unfold candleShape candle
  split
  · norm_num
  · have h1 := erfc_pos (Real.sqrt 0.5 / sigma * comb nc p (n j) (fun k => grad g n k j) fun k => gradPhi g phi k j)
    have h2 := erfc_lt_two (Real.sqrt 0.5 / sigma * comb nc p (n j) (fun k => grad g n k j) fun k => gradPhi g phi k j)
    constructor <;> linarith

/-- **C77 (gradients).** For every energy `E` of the shape with functional derivative `E_shape`, and every change of density,
potential and asymmetry parameter, the rate of change of the energy through the shape function is what the propagated gradients give.
Points exactly at the low-density cutoff, and points where the tanh is cut off (`x = 4`), are excluded: the shape function jumps there. -/
theorem C77_gradient_partial (g : Grid) (hg : GridOK g) (nc sigma p : ℝ) (hnc : 0 < nc) (n : Field) (phi : Arr)
    (E : Field → ℝ) (E_shape : Field) (hE : FuncDeriv g E E_shape (candleShape g nc sigma p n phi))
    (h8 : ∀ j < nr g.S, n j ≠ 1e-8)
    (h4 : ∀ j < nr g.S, 1e-8 < n j → xOf nc p (fun k => grad g n k j) (fun k => gradPhi g phi k j) ≠ 4)
    (E_n : Field) (E_phi : Arr) (E_p : ℝ) (dn : Field) (dphi : Arr) (dp : ℝ) :
    HasDerivAt (fun t : ℝ => E (candleShape g nc sigma (p + t * dp) (fun j => n j + t * dn j) fun i => phi i + (t : ℂ) * dphi i))
      (g.dV * ∑ j ∈ Finset.range (nr g.S), (candleE_n g nc sigma p n phi E_shape E_n j - E_n j) * dn j
        + g.detR * innerTilde g (fun i => candleE_phi g nc sigma p n phi E_shape E_phi i - E_phi i) dphi
        + (candleE_p g nc sigma p n phi E_shape E_p - E_p) * dp) 0 := by
  obtain ⟨hS, hV⟩ := hg
  have lin : ∀ a b : ℝ, HasDerivAt (fun t : ℝ => a + t * b) b 0 := by
    intro a b
    simpa using ((hasDerivAt_id (0 : ℝ)).mul_const b).const_add a
  set c : ℝ → Field := fun t => candleShape g nc sigma (p + t * dp) (fun j => n j + t * dn j) fun i => phi i + (t : ℂ) * dphi i with hc
  have c0 : c 0 = candleShape g nc sigma p n phi := by simp [hc]
  -- pointwise derivative with a factor
  have hA : ∀ A : ℝ, ∀ j < nr g.S, HasDerivAt (fun t => A * c t j)
      (A_n nc (Real.sqrt 0.5 / sigma) p (n j) (fun k => grad g n k j) (fun k => gradPhi g phi k j) A * dn j
        + dot3 (A_Dn nc (Real.sqrt 0.5 / sigma) p (n j) (fun k => grad g n k j) (fun k => gradPhi g phi k j) A) (fun k => grad g dn k j)
        + dot3 (A_Dphi nc (Real.sqrt 0.5 / sigma) p (n j) (fun k => grad g n k j) (fun k => gradPhi g phi k j) A) (fun k => gradPhi g dphi k j)
        + A_p nc (Real.sqrt 0.5 / sigma) p (n j) (fun k => grad g n k j) (fun k => gradPhi g phi k j) A * dp) 0 := by
    intro A j hj
    have h := candle_deriv nc (Real.sqrt 0.5 / sigma) hnc (fun t => n j + t * dn j) (fun t => p + t * dp)
      (fun t k => grad g n k j + t * grad g dn k j) (fun t k => gradPhi g phi k j + t * gradPhi g dphi k j)
      (dn j) dp (fun k => grad g dn k j) (fun k => gradPhi g dphi k j) 0 (lin _ _) (lin _ _) (fun k => lin _ _) (fun k => lin _ _)
      (by simpa using h8 j hj) (by simpa using h4 j hj) A
    simp only [zero_mul, add_zero] at h
    refine h.congr_of_eventuallyEq (Eventually.of_forall fun t => ?_)
    simp only [hc, candleShape, grad_moved g hS, gradPhi_moved g hS]
  have h1 := hE c _ c0 fun j hj => by simpa only [one_mul] using hA 1 j hj
  refine h1.congr_deriv ?_
  have e1 : ∀ j ∈ Finset.range (nr g.S), E_shape j *
      (A_n nc (Real.sqrt 0.5 / sigma) p (n j) (fun k => grad g n k j) (fun k => gradPhi g phi k j) 1 * dn j
        + dot3 (A_Dn nc (Real.sqrt 0.5 / sigma) p (n j) (fun k => grad g n k j) (fun k => gradPhi g phi k j) 1) (fun k => grad g dn k j)
        + dot3 (A_Dphi nc (Real.sqrt 0.5 / sigma) p (n j) (fun k => grad g n k j) (fun k => gradPhi g phi k j) 1) (fun k => gradPhi g dphi k j)
        + A_p nc (Real.sqrt 0.5 / sigma) p (n j) (fun k => grad g n k j) (fun k => gradPhi g phi k j) 1 * dp)
      = A_n nc (Real.sqrt 0.5 / sigma) p (n j) (fun k => grad g n k j) (fun k => gradPhi g phi k j) (E_shape j) * dn j
        + dot3 (fun k => E_Dn g nc sigma p n phi E_shape k j) (fun k => grad g dn k j)
        + dot3 (fun k => E_Dphi g nc sigma p n phi E_shape k j) (fun k => gradPhi g dphi k j)
        + A_p nc (Real.sqrt 0.5 / sigma) p (n j) (fun k => grad g n k j) (fun k => gradPhi g phi k j) (E_shape j) * dp := by
    intro j hj
    have a := (hA (E_shape j) j (Finset.mem_range.1 hj))
    have b := (hA 1 j (Finset.mem_range.1 hj)).const_mul (E_shape j)
    simp only [one_mul] at b
    exact b.unique a
  rw [Finset.sum_congr rfl e1, Finset.sum_add_distrib, Finset.sum_add_distrib, Finset.sum_add_distrib, grad_adjoint g hS, gradPhi_adjoint g hS]
  have e2 : ∀ j, candleE_n g nc sigma p n phi E_shape E_n j - E_n j
      = A_n nc (Real.sqrt 0.5 / sigma) p (n j) (fun k => grad g n k j) (fun k => gradPhi g phi k j) (E_shape j) - div g (E_Dn g nc sigma p n phi E_shape) j := by
    intro j; unfold candleE_n; ring
  have e3 : innerTilde g (fun i => candleE_phi g nc sigma p n phi E_shape E_phi i - E_phi i) dphi
      = -∑ i ∈ Finset.range (nG g.S), weight g.S i * (conj (divergence g.S g.G (fun k => fftJ g.S (E_Dphi g nc sigma p n phi E_shape k)) i) * dphi i).re := by
    unfold innerTilde candleE_phi
    rw [← Finset.sum_neg_distrib]
    refine Finset.sum_congr rfl fun i _ => ?_
    simp only [sub_sub_cancel_left, map_neg, neg_mul, Complex.neg_re, mul_neg]
  have e4 : candleE_p g nc sigma p n phi E_shape E_p - E_p = g.dV * ∑ j ∈ Finset.range (nr g.S),
      A_p nc (Real.sqrt 0.5 / sigma) p (n j) (fun k => grad g n k j) (fun k => gradPhi g phi k j) (E_shape j) := by
    unfold candleE_p; ring
  simp only [e2, e3, e4, sub_mul, Finset.sum_sub_distrib, ← hV, ← Finset.sum_mul]
  ring

/-! ### SGA13 -/

/-- **C77 (expanded density).** For every energy `E` of the expanded density with functional derivative `A_nEx`, the gradient
propagated to the density is the functional derivative of `E` as functional of the density. Points exactly at the low-density
cutoff, where the expanded density jumps, are excluded. -/
theorem C77_expand_partial (g : Grid) (hg : GridOK g) (w : Nat → ℝ) (R : ℝ) (n : Field)
    (E : Field → ℝ) (A_nEx : Field) (hE : FuncDeriv g E A_nEx (expand g w R n)) (h9 : ∀ j < nr g.S, nBar g w n j ≠ 1e-9)
    (A_n dn : Field) :
    HasDerivAt (fun t : ℝ => E (expand g w R fun j => n j + t * dn j))
      (g.dV * ∑ j ∈ Finset.range (nr g.S), (expandA_n g w R n A_nEx A_n j - A_n j) * dn j) 0 := by
  obtain ⟨hS, hV⟩ := hg
  have lin : ∀ a b : ℝ, HasDerivAt (fun t : ℝ => a + t * b) b 0 := by
    intro a b
    simpa using ((hasDerivAt_id (0 : ℝ)).mul_const b).const_add a
  have hw : ∀ X : Arr, wMul w X = mult (fun i => (w i : ℂ)) X := fun X => rfl
  have mv : ∀ t : ℝ, wMul w (fftJ g.S fun j => n j + t * dn j) = fun i => wMul w (fftJ g.S n) i + (t : ℂ) * wMul w (fftJ g.S dn) i := by
    intro t; rw [fftJ_moved]; funext i; simp only [wMul]; ring
  have hb : ∀ (t : ℝ) j, nBar g w (fun j => n j + t * dn j) j = nBar g w n j + t * nBar g w dn j := by
    intro t j; unfold nBar; rw [mv, fftI_moved]
  have hD : ∀ (t : ℝ) k j, DnBar g w R (fun j => n j + t * dn j) k j = DnBar g w R n k j + t * DnBar g w R dn k j := by
    intro t k j
    have := gradPhi_moved g hS (fun i => (R : ℂ) * wMul w (fftJ g.S n) i) (fun i => (R : ℂ) * wMul w (fftJ g.S dn) i) t k j
    unfold DnBar
    rw [mv, show (fun i => (R : ℂ) * (wMul w (fftJ g.S n) i + (t : ℂ) * wMul w (fftJ g.S dn) i))
      = fun i => (R : ℂ) * wMul w (fftJ g.S n) i + (t : ℂ) * ((R : ℂ) * wMul w (fftJ g.S dn) i) by funext i; ring]
    exact this
  set P : Field := fun j => nEx_nBar (R * R * R) (nBar g w n j) (DnBarSq g w R n j) with hP
  set Q : Field := fun j => nEx_DnBarSq (nBar g w n j) with hQ
  have hpt : ∀ j < nr g.S, HasDerivAt (fun t : ℝ => expand g w R (fun j => n j + t * dn j) j)
      (P j * nBar g w dn j + Q j * (2 * dot3 (fun k => DnBar g w R n k j) fun k => DnBar g w R dn k j)) 0 := by
    intro j hj
    have hn : HasDerivAt (fun t : ℝ => nBar g w n j + t * nBar g w dn j) (nBar g w dn j) 0 := lin _ _
    have e : (fun t : ℝ => expand g w R (fun j => n j + t * dn j) j) = fun t : ℝ => nExOf (R * R * R) (nBar g w n j + t * nBar g w dn j)
        (dot3 (fun k => DnBar g w R n k j + t * DnBar g w R dn k j) fun k => DnBar g w R n k j + t * DnBar g w R dn k j) := by
      funext t; simp only [expand, DnBarSq, hb, hD]
    rw [e]
    simp only [hP, hQ]
    rcases lt_or_gt_of_ne (h9 j hj) with h | h
    · have z : nEx_nBar (R * R * R) (nBar g w n j) (DnBarSq g w R n j) = 0 := by unfold nEx_nBar; rw [if_pos h]
      have z2 : nEx_DnBarSq (nBar g w n j) = 0 := by unfold nEx_DnBarSq; rw [if_pos h]
      rw [z, z2, zero_mul, zero_mul, add_zero]
      refine (hasDerivAt_const (0 : ℝ) (1e-9 : ℝ)).congr_of_eventuallyEq ?_
      filter_upwards [hn.continuousAt.eventually (isOpen_Iio.mem_nhds (by simpa using h))] with t ht
      have ht : nBar g w n j + t * nBar g w dn j < 1e-9 := ht
      unfold nExOf; rw [if_pos ht]
    · have hn0 : 0 < nBar g w n j := lt_trans (by norm_num) h
      have hd : ∀ k, HasDerivAt (fun t : ℝ => DnBar g w R n k j + t * DnBar g w R dn k j) (DnBar g w R dn k j) 0 := fun k => lin _ _
      have h2 := (((hd 0).mul (hd 0)).add ((hd 1).mul (hd 1))).add ((hd 2).mul (hd 2))
      have h3 := (hn.const_mul (R * R * R)).add (h2.mul ((hasDerivAt_const (0 : ℝ) (1 : ℝ)).div hn (by simpa using hn0.ne')))
      refine (h3.congr_of_eventuallyEq ?_).congr_deriv ?_
      · filter_upwards [hn.continuousAt.eventually (isOpen_Ioi.mem_nhds (by simpa using h))] with t ht
        have ht : 1e-9 < nBar g w n j + t * nBar g w dn j := ht
        unfold nExOf; rw [if_neg (not_lt.2 ht.le)]; rfl
      · unfold nEx_nBar nEx_DnBarSq
        rw [if_neg (not_lt.2 h.le), if_neg (not_lt.2 h.le)]
        simp only [Pi.add_apply, Pi.mul_apply, Pi.div_apply, zero_mul, add_zero, DnBarSq, dot3]
        field_simp
        ring
  have h1 := hE (fun t => expand g w R fun j => n j + t * dn j) _ (by simp) hpt
  refine h1.congr_deriv ?_
  congr 1
  have e1 : ∀ j, A_nEx j * (P j * nBar g w dn j + Q j * (2 * dot3 (fun k => DnBar g w R n k j) fun k => DnBar g w R dn k j))
      = A_nEx j * P j * nBar g w dn j + 2 * dot3 (fun k => A_nEx j * Q j * DnBar g w R n k j) (fun k => DnBar g w R dn k j) := by
    intro j; unfold dot3; ring
  simp only [e1, Finset.sum_add_distrib]
  rw [← Finset.mul_sum]
  have e2 : ∑ j ∈ Finset.range (nr g.S), A_nEx j * P j * nBar g w dn j
      = ∑ j ∈ Finset.range (nr g.S), Jdag g.S (wMul w (Idag g.S fun j => A_nEx j * P j)) j * dn j := by
    unfold nBar
    rw [hw, mult_adjoint]
    refine Finset.sum_congr rfl fun j _ => ?_
    simp only [Complex.conj_ofReal, hw]
  have e3 : ∀ k, ∑ j ∈ Finset.range (nr g.S), (A_nEx j * Q j * DnBar g w R n k j) * DnBar g w R dn k j
      = -∑ j ∈ Finset.range (nr g.S), R * Jdag g.S (mult (fun i => (w i : ℂ)) (mult (Mgrad g.S g.G k) (Idag g.S fun j => A_nEx j * Q j * DnBar g w R n k j))) j * dn j := by
    intro k
    have e : DnBar g w R dn k = fftI g.S (mult (fun i => Mgrad g.S g.G k i * ((R : ℂ) * (w i : ℂ))) (fftJ g.S dn)) := by
      unfold DnBar
      refine fftI_congr g.S _ _ fun i hi => ?_
      rw [gradient_at g.S hS _ _ _ _ hi]
      simp only [mult, wMul, Int.toNat_natCast]; ring
    rw [e, mult_adjoint, ← Finset.sum_neg_distrib]
    refine Finset.sum_congr rfl fun j _ => ?_
    rw [← neg_mul]
    congr 1
    unfold Jdag
    rw [show ∀ x : ℝ, -(R * (1 / (nr g.S : ℝ) * x)) = 1 / (nr g.S : ℝ) * (-R * x) by intro x; ring, ← fftI_smul g.S (-R)]
    refine congrArg (1 / (nr g.S : ℝ) * fftI g.S · j) ?_
    funext i
    simp only [mult, map_mul, Mgrad_conj, Complex.conj_ofReal]
    push_cast; ring
  have e4 : ∀ j, Jdag g.S (wMul w (A_nBarTilde g w R n A_nEx)) j = Jdag g.S (wMul w (Idag g.S fun j => A_nEx j * P j)) j
      - 2 * ∑ k, R * Jdag g.S (mult (fun i => (w i : ℂ)) (mult (Mgrad g.S g.G k) (Idag g.S fun j => A_nEx j * Q j * DnBar g w R n k j))) j := by
    intro j
    unfold Jdag
    have : fftI g.S (wMul w (A_nBarTilde g w R n A_nEx)) = fftI g.S (fun i => wMul w (Idag g.S fun j => A_nEx j * P j) i
        + ((-(2 * R) : ℝ) : ℂ) * ∑ k, mult (fun i => (w i : ℂ)) (mult (Mgrad g.S g.G k) (Idag g.S fun j => A_nEx j * Q j * DnBar g w R n k j)) i) := by
      refine fftI_congr g.S _ _ fun i hi => ?_
      simp only [wMul, A_nBarTilde]
      rw [divergence_at g.S hS _ _ _ hi]
      simp only [mult, Fin.sum_univ_three, hP, hQ]
      push_cast; ring
    rw [this, fftI_moved, fftI_sum]
    simp only [Fin.sum_univ_three]
    ring
  rw [e2]
  have e5 : ∀ j, (expandA_n g w R n A_nEx A_n j - A_n j) * dn j = Jdag g.S (wMul w (Idag g.S fun j => A_nEx j * P j)) j * dn j
      - 2 * (R * Jdag g.S (mult (fun i => (w i : ℂ)) (mult (Mgrad g.S g.G 0) (Idag g.S fun j => A_nEx j * Q j * DnBar g w R n 0 j))) j * dn j
        + R * Jdag g.S (mult (fun i => (w i : ℂ)) (mult (Mgrad g.S g.G 1) (Idag g.S fun j => A_nEx j * Q j * DnBar g w R n 1 j))) j * dn j
        + R * Jdag g.S (mult (fun i => (w i : ℂ)) (mult (Mgrad g.S g.G 2) (Idag g.S fun j => A_nEx j * Q j * DnBar g w R n 2 j))) j * dn j) := by
    intro j
    unfold expandA_n
    rw [e4, Fin.sum_univ_three]; ring
  simp only [dot3, e5, Finset.sum_sub_distrib, ← Finset.mul_sum, Finset.sum_add_distrib, e3]
  ring

/-! ### The hypotheses are met -/

/-- The integral of the square has twice the field as functional derivative. -/
theorem funcDeriv_sq (g : Grid) (s : Field) : FuncDeriv g (fun s => g.dV * ∑ j ∈ Finset.range (nr g.S), s j ^ 2) (fun j => 2 * s j) s := by
  intro c c' h0 hc
  refine (HasDerivAt.const_mul g.dV (HasDerivAt.fun_sum fun j hj => (hc j (Finset.mem_range.1 hj)).pow 2)).congr_deriv ?_
  congr 1
  refine Finset.sum_congr rfl fun j _ => ?_
  rw [h0]; simp

/-- For all densities above the cutoff and all potentials there is a positive asymmetry parameter that meets the hypotheses of `C77_gradient_partial`. -/
example (g : Grid) (nc : ℝ) (n : Field) (phi : Arr) (hn : ∀ j < nr g.S, 1e-8 < n j) : ∃ p > 0,
    (∀ j < nr g.S, n j ≠ 1e-8) ∧ ∀ j < nr g.S, 1e-8 < n j → xOf nc p (fun k => grad g n k j) (fun k => gradPhi g phi k j) ≠ 4 := by
  set c : Nat → ℝ := fun j => eDotE nc (fun k => grad g n k j) (fun k => gradPhi g phi k j) with hc
  have hs : 0 ≤ ∑ j ∈ Finset.range (nr g.S), |c j| := Finset.sum_nonneg fun _ _ => abs_nonneg _
  refine ⟨1 / (1 + ∑ j ∈ Finset.range (nr g.S), |c j|), by positivity, fun j hj => (hn j hj).ne', fun j hj _ h => ?_⟩
  have hle : |c j| ≤ ∑ j ∈ Finset.range (nr g.S), |c j| :=
    Finset.single_le_sum (f := fun j => |c j|) (fun _ _ => abs_nonneg _) (Finset.mem_range.2 hj)
  generalize ∑ j ∈ Finset.range (nr g.S), |c j| = T at hs hle h
  unfold xOf at h
  change -|1 / (1 + T)| * c j = 4 at h
  have hp : 0 < 1 + T := by linarith
  rw [abs_of_pos (by positivity)] at h
  have h2 : -c j = 4 * (1 + T) := by field_simp at h; linarith
  have := neg_le_abs (c j)
  linarith

/-- Without averaging, every density above the cutoff meets the hypotheses of `C77_expand_partial`. -/
example (g : Grid) (hg : GridOK g) (R : ℝ) (n : Field) (hn : ∀ j < nr g.S, 1e-9 < n j) :
    (∀ j < nr g.S, nBar g (fun _ => 1) n j ≠ 1e-9) ∧
    FuncDeriv g (fun s => g.dV * ∑ j ∈ Finset.range (nr g.S), s j ^ 2) (fun j => 2 * expand g (fun _ => 1) R n j) (expand g (fun _ => 1) R n) := by
  refine ⟨fun j hj => ?_, funcDeriv_sq g _⟩
  have : nBar g (fun _ => 1) n j = n j := by
    unfold nBar
    rw [show wMul (fun _ => 1) (fftJ g.S n) = fftJ g.S n by funext i; simp [wMul]]
    exact fftI_fftJ g.S hg.1 n j hj
  rw [this]; exact (hn j hj).ne'

example : GridOK ⟨⟨4, 3, 2⟩, fun i j => if i = j then 1 else 0, 24, 1⟩ := ⟨⟨by norm_num, by norm_num, by norm_num⟩, by norm_num [nr]⟩

end
end Jdftx.Cavity
