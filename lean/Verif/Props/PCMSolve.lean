import Verif.Lemmas.PCMSolve
import Verif.Props.NonlinearPCM
import Mathlib.Algebra.BigOperators.Ring.Finset

/-!
# C81, C82: energies and gradients of the continuum solvation models

`dot` counts every reciprocal lattice vector once only when the last dimension of the grid is 1 or even (`C23_violation`); the theorems marked `_partial` assume that.
-/
namespace Jdftx.PCM
open Box ExCorr Cavity NPCM
open scoped ComplexConjugate
noncomputable section

/-! ### Specification -/

/-- A path through arrays (of reciprocal lattice vectors) with derivative `X'` at `t`. -/
def Path (g : Grid) (X : ℝ → Arr) (X' : Arr) (t : ℝ) : Prop := ∀ i : Nat, i < nG g.S → HasDerivAt (fun t => X t i) (X' i) t

/-- A path through `n` fields. -/
def ShapePath (g : Grid) (n : Nat) (s : ℝ → Nat → Field) (s' : Nat → Field) (t : ℝ) : Prop :=
  ∀ m < n, ∀ j < nr g.S, HasDerivAt (fun t => s t m j) (s' m j) t

/-- The grids on which `dot` is the inner product of real fields. -/
def DotOK (g : Grid) : Prop := GridOK g ∧ (g.S.s2 = 1 ∨ g.S.s2 % 2 = 0)

/-- The inner product of lists of fields. -/
def inner (g : Grid) (n : Nat) (a b : Nat → Field) : ℝ := g.dV * ∑ m ∈ Finset.range n, ∑ j ∈ Finset.range (nr g.S), a m j * b m j

theorem dot_dp (g : Grid) (ok : DotOK g) (X Y : Arr) : dotHalf g.S X Y = dotPairs g.S X Y := (C23_real_partial g.S ok.1.1 ok.2).1 X Y

/-! ### Linear response -/

/-- The energy of the linear model without reference to the half space. -/
theorem adiel_form (g : Grid) (ok : DotOK g) (p : Linear) (n : Nat) (shape : Nat → Field) (phi rho : Arr) :
    p.adiel g n shape phi rho = -0.5 * ((1 / (4 * Real.pi)) * (g.dV * ∑ j ∈ Finset.range (nr g.S),
      (dot3 (fun k => p.epsilon k (shape 0 j) * gradPhi g phi k j) (fun k => gradPhi g phi k j) + p.k2factor * shape (n - 1) j * fftI g.S phi j * fftI g.S phi j)))
      + g.detR * (dotPairs g.S phi rho - 0.5 * dotPairs g.S (coulomb g rho) rho) := by
  unfold Linear.adiel
  rw [dot_dp g ok, dot_dp g ok, dot_opO, dot_opO, hessian_form g ok.1, dp_sub', dp_smul']

/-- **C81 (symmetry).** The operator of the linear solver is symmetric, for every shape function, dielectric constant or tensor and ionic strength. -/
theorem C81_symmetric_partial (g : Grid) (ok : DotOK g) (p : Linear) (s0 sb : Field) (phi psi : Arr) :
    dotHalf g.S psi (opO g (p.hessian g s0 sb phi)) = dotHalf g.S phi (opO g (p.hessian g s0 sb psi)) := by
  rw [dot_dp g ok, dot_dp g ok, dot_opO, dot_opO, hessian_form g ok.1, hessian_form g ok.1]
  congr 2
  refine Finset.sum_congr rfl fun j _ => ?_
  unfold dot3; ring

/-- **C81 (positivity).** Where the shape functions are not negative and the fluid responds at least like vacuum, the form of the operator is at least the energy of the electric
field in vacuum. -/
theorem C81_positive_partial (g : Grid) (ok : DotOK g) (hV : 0 < g.dV) (p : Linear) (s0 sb : Field) (hs0 : ∀ j < nr g.S, 0 ≤ s0 j) (hsb : ∀ j < nr g.S, 0 ≤ sb j)
    (hk : 0 ≤ p.k2factor) (he : 1 ≤ p.epsBulk) (ht : p.aniso → ∀ k, 1 ≤ p.epsTensor k) (phi : Arr) :
    (1 / (4 * Real.pi)) * (g.dV * ∑ j ∈ Finset.range (nr g.S), ∑ k, gradPhi g phi k j ^ 2) ≤ dotHalf g.S phi (opO g (p.hessian g s0 sb phi)) := by
  rw [dot_dp g ok, dot_opO, hessian_form g ok.1]
  have hpi := Real.pi_pos
  refine mul_le_mul_of_nonneg_left (mul_le_mul_of_nonneg_left (Finset.sum_le_sum fun j hj => ?_) hV.le) (by positivity)
  have hj := Finset.mem_range.1 hj
  have e1 : ∀ k, 1 ≤ p.epsilon k (s0 j) := by
    intro k
    unfold Linear.epsilon
    split
    · next h => have := mul_nonneg (sub_nonneg.2 (ht h k)) (hs0 j hj); linarith
    · have := mul_nonneg (sub_nonneg.2 he) (hs0 j hj); linarith
  have e2 : ∀ k, gradPhi g phi k j ^ 2 ≤ p.epsilon k (s0 j) * gradPhi g phi k j * gradPhi g phi k j := by
    intro k
    have := mul_nonneg (sub_nonneg.2 (e1 k)) (sq_nonneg (gradPhi g phi k j)); nlinarith
  have e3 : 0 ≤ p.k2factor * sb j * fftI g.S phi j * fftI g.S phi j := by
    rw [mul_assoc]; exact mul_nonneg (mul_nonneg hk (hsb j hj)) (mul_self_nonneg _)
  rw [Fin.sum_univ_three]
  have := e2 0; have := e2 1; have := e2 2
  unfold dot3; linarith

/-- **C81 (preconditioner).** The preconditioner is symmetric, and not negative when the dielectric function is positive. -/
theorem C81_preconditioner_partial (g : Grid) (ok : DotOK g) (K : Nat → ℝ) (epsInv : Field) (r r' : Arr) :
    dotHalf g.S r' (precondition g K epsInv r) = dotHalf g.S r (precondition g K epsInv r') ∧
      ((∀ j < nr g.S, 0 ≤ epsInv j) → 0 ≤ dotHalf g.S r (precondition g K epsInv r)) := by
  have hn : (0 : ℝ) < nr g.S := by exact_mod_cast nr_pos g.S ok.1.1
  have e : ∀ r r' : Arr, dotHalf g.S r' (precondition g K epsInv r)
      = (1 / (nr g.S : ℝ)) * ∑ j ∈ Finset.range (nr g.S), epsInv j * fftI g.S (wMul K r) j * fftI g.S (wMul K r') j := by
    intro r r'
    rw [fftI_dp g.S ok.1.1 (fun j => epsInv j * fftI g.S (wMul K r) j), ← mul_assoc, one_div_mul_cancel hn.ne', one_mul, dot_dp g ok]
    unfold precondition
    rw [dp_wMul, dp_comm]
  refine ⟨?_, fun h => ?_⟩
  · rw [e, e]
    congr 1
    exact Finset.sum_congr rfl fun j _ => by ring
  · rw [e]
    refine mul_nonneg (by positivity) (Finset.sum_nonneg fun j hj => ?_)
    rw [mul_assoc]
    exact mul_nonneg (h j (Finset.mem_range.1 hj)) (mul_self_nonneg _)

theorem epsilon_deriv (p : Linear) (k : Fin 3) (s : ℝ → ℝ) (s' t : ℝ) (hs : HasDerivAt s s' t) :
    HasDerivAt (fun t => p.epsilon k (s t)) ((p.epsilon k 1 - 1) * s') t := by
  unfold Linear.epsilon
  split
  · exact ((hs.const_mul _).const_add 1).congr_deriv (by ring)
  · exact ((hs.const_mul _).const_add 1).congr_deriv (by ring)

/-- The sum over the shape functions has only two terms. -/
theorem shape_sum (n : Nat) (hn : 0 < n) (a b s : Nat → ℝ) (ha : ∀ m, a m = (if m = 0 then b 0 else 0) + (if m = n - 1 then b 1 else 0)) :
    ∑ m ∈ Finset.range n, a m * s m = b 0 * s 0 + b 1 * s (n - 1) := by
  simp only [ha, add_mul, Finset.sum_add_distrib, ite_mul, zero_mul]
  rw [Finset.sum_ite_eq' (Finset.range n) 0 (fun m => b 0 * s m), Finset.sum_ite_eq' (Finset.range n) (n - 1) (fun m => b 1 * s m),
    if_pos (Finset.mem_range.2 hn), if_pos (Finset.mem_range.2 (by omega))]

/-- **C81 (gradients).** When the potential, the charge density and the shape functions change together, the rate of change of the electrostatic energy is given by the
reported derivatives with respect to charge density and shape functions, and the residual of the linear equation applied to the change of the potential. -/
theorem C81_gradients_partial (g : Grid) (ok : DotOK g) (p : Linear) (n : Nat) (hn : 0 < n) (phi rho : ℝ → Arr) (phi' rho' : Arr)
    (shape : ℝ → Nat → Field) (shape' : Nat → Field) (t : ℝ) (hp : Path g phi phi' t) (hr : Path g rho rho' t) (hs : ShapePath g n shape shape' t) :
    HasDerivAt (fun t => p.adiel g n (shape t) (phi t) (rho t))
      (g.detR * dotHalf g.S (fun i => rho t i - p.hessian g (shape t 0) (shape t (n - 1)) (phi t) i) phi'
        + g.detR * dotHalf g.S (adiel_rho g (phi t) (rho t)) rho' + inner g n (p.adiel_shape g n (phi t)) shape') t := by
  simp only [adiel_form g ok]
  have h1 : ∀ j ∈ Finset.range (nr g.S), HasDerivAt (fun t => dot3 (fun k => p.epsilon k (shape t 0 j) * gradPhi g (phi t) k j) (fun k => gradPhi g (phi t) k j)
        + p.k2factor * shape t (n - 1) j * fftI g.S (phi t) j * fftI g.S (phi t) j)
      (2 * (dot3 (fun k => p.epsilon k (shape t 0 j) * gradPhi g (phi t) k j) (fun k => gradPhi g phi' k j)
          + p.k2factor * shape t (n - 1) j * fftI g.S (phi t) j * fftI g.S phi' j)
        + -(8 * Real.pi) * ∑ m ∈ Finset.range n, p.adiel_shape g n (phi t) m j * shape' m j) t := by
    intro j hj
    have hj := Finset.mem_range.1 hj
    have d : ∀ k, HasDerivAt (fun t => p.epsilon k (shape t 0 j) * gradPhi g (phi t) k j * gradPhi g (phi t) k j)
        (2 * (p.epsilon k (shape t 0 j) * gradPhi g (phi t) k j * gradPhi g phi' k j) + (p.epsilon k 1 - 1) * gradPhi g (phi t) k j ^ 2 * shape' 0 j) t := by
      intro k
      have a := gradPhi_deriv g ok.1.1 phi phi' t hp k j
      refine (((epsilon_deriv p k _ _ t (hs 0 hn j hj)).mul a).mul a).congr_deriv ?_
      simp only [Pi.mul_apply]; ring
    have b := fftI_deriv g.S phi phi' t hp j
    have c := ((((hs (n - 1) (by omega) j hj).const_mul p.k2factor).mul b).mul b)
    have s := shape_sum n hn (fun m => p.adiel_shape g n (phi t) m j)
      (fun b => if b = 0 then -(1 / (8 * Real.pi)) * ∑ k, (p.epsilon k 1 - 1) * gradPhi g (phi t) k j ^ 2 else -(p.k2factor / (8 * Real.pi)) * (fftI g.S (phi t) j) ^ 2)
      (fun m => shape' m j) (by
        intro m
        unfold Linear.adiel_shape
        rw [sub_eq_add_neg]
        congr 1
        · by_cases hm : m = 0
          · simp only [hm, if_true, Fin.sum_univ_three]
            unfold Linear.epsilon dot3
            by_cases ha : p.aniso
            · simp only [if_pos ha]; ring
            · simp only [if_neg ha]; ring
          · simp only [hm, if_false]
        · by_cases hm : m = n - 1
          · by_cases hk : p.k2factor = 0
            · simp [hk]
            · simp [hm, hk]
          · simp [hm])
    rw [s]
    have hpi := Real.pi_pos.ne'
    unfold dot3
    refine ((((d 0).add (d 1)).add (d 2)).add c).congr_deriv ?_
    simp only [if_true, Fin.sum_univ_three, one_ne_zero, if_false, Pi.mul_apply]
    field_simp
    ring
  have h2 := dp_deriv g.S phi rho phi' rho' t hp hr
  have h3 := dp_deriv g.S _ rho _ rho' t (coulomb_deriv g rho rho' t hr) hr
  refine ((((HasDerivAt.fun_sum h1).const_mul g.dV).const_mul (1 / (4 * Real.pi))).const_mul (-0.5)).add ((h2.sub (h3.const_mul 0.5)).const_mul g.detR) |>.congr_deriv ?_
  rw [dot_dp g ok, dot_dp g ok, dp_sub', mul_sub g.detR (dotPairs g.S (rho t) phi'), dp_comm g.S (p.hessian _ _ _ _), hessian_form g ok.1,
    dp_comm g.S (coulomb g rho'), coulomb_dp]
  unfold adiel_rho inner
  rw [dp_sub', Finset.sum_add_distrib, ← Finset.mul_sum, ← Finset.mul_sum, Finset.sum_comm, dp_comm g.S (rho t) phi']
  have hpi := Real.pi_pos.ne'
  field_simp
  ring

/-- **C81 (gradients at the solution).** Once the linear equation is solved, the energy changes at the reported rates when charge density and shape functions
change, whatever the change of the potential. -/
theorem C81_solved_partial (g : Grid) (ok : DotOK g) (p : Linear) (n : Nat) (hn : 0 < n) (phi rho : ℝ → Arr) (phi' rho' : Arr)
    (shape : ℝ → Nat → Field) (shape' : Nat → Field) (t : ℝ) (hp : Path g phi phi' t) (hr : Path g rho rho' t) (hs : ShapePath g n shape shape' t)
    (sol : ∀ i : Nat, i < nG g.S → p.hessian g (shape t 0) (shape t (n - 1)) (phi t) i = rho t i) :
    HasDerivAt (fun t => p.adiel g n (shape t) (phi t) (rho t))
      (g.detR * dotHalf g.S (adiel_rho g (phi t) (rho t)) rho' + inner g n (p.adiel_shape g n (phi t)) shape') t := by
  refine (C81_gradients_partial g ok p n hn phi rho phi' rho' shape shape' t hp hr hs).congr_deriv ?_
  rw [dot_dp g ok (fun i => rho t i - _), dp_sub', dp_congr g.S (X := p.hessian _ _ _ _) (X' := rho t) sol (fun _ _ => rfl)]
  ring

/-- **C81 (first-order correct).** The energy evaluated with any other potential than the solution differs from the energy of the solution by exactly minus half the quadratic form of
the operator at the error, so the error of the energy is of second order; at the solution the energy is half the interaction of the charge
with the potential of the fluid. -/
theorem C81_variational_partial (g : Grid) (ok : DotOK g) (p : Linear) (n : Nat) (shape : Nat → Field) (phi psi rho : Arr)
    (sol : ∀ i : Nat, i < nG g.S → p.hessian g (shape 0) (shape (n - 1)) phi i = rho i) :
    p.adiel g n shape psi rho = p.adiel g n shape phi rho
        - 0.5 * dotHalf g.S (fun i => psi i - phi i) (opO g (p.hessian g (shape 0) (shape (n - 1)) fun i => psi i - phi i)) ∧
      p.adiel g n shape phi rho = 0.5 * g.detR * dotHalf g.S (adiel_rho g phi rho) rho := by
  have key : ∀ X, dotPairs g.S X (p.hessian g (shape 0) (shape (n - 1)) phi) = dotPairs g.S X rho := fun X => dp_congr g.S (fun _ _ => rfl) sol
  have sym : ∀ X Y, g.detR * dotPairs g.S X (p.hessian g (shape 0) (shape (n - 1)) Y) = g.detR * dotPairs g.S Y (p.hessian g (shape 0) (shape (n - 1)) X) := by
    intro X Y
    have := C81_symmetric_partial g ok p (shape 0) (shape (n - 1)) Y X
    rwa [dot_dp g ok, dot_dp g ok, dot_opO, dot_opO] at this
  have e : ∀ X, p.adiel g n shape X rho = -0.5 * (g.detR * dotPairs g.S X (p.hessian g (shape 0) (shape (n - 1)) X))
      + g.detR * (dotPairs g.S X rho - 0.5 * dotPairs g.S (coulomb g rho) rho) := by
    intro X
    unfold Linear.adiel
    rw [dot_dp g ok, dot_dp g ok, dot_opO, dot_opO, dp_sub', dp_smul']
  constructor
  · rw [e, e, key, dot_dp g ok, dot_opO]
    have a := sym psi fun i => psi i - phi i
    have b := sym phi fun i => psi i - phi i
    have c := sym phi psi
    rw [key] at b c
    rw [dp_sub'] at a b
    rw [dp_sub']
    linarith
  · rw [e, key, dot_dp g ok]
    unfold adiel_rho
    rw [dp_sub']; ring

/-! ### Nonlinear response -/

/-- The response functions are differentiable along the fields and potentials that occur, with the derivatives that the program uses. -/
def Smooth (g : Grid) (r : Response) (phi : Arr) : Prop :=
  (∀ j < nr g.S, ∀ (c : ℝ → Fin 3 → ℝ) (c' : Fin 3 → ℝ) (t : ℝ), c t = r.Dphi g phi j → (∀ k, HasDerivAt (fun t => c t k) (c' k) t) →
    HasDerivAt (fun t => r.Fd (c t)) (dot3 (r.Fd' (c t)) c') t) ∧
  (r.ions = true → ∀ j < nr g.S, HasDerivAt r.Fi (r.Fi' (fftI g.S phi j)) (fftI g.S phi j))

theorem w1_deriv (g : Grid) (r : Response) (X : ℝ → Arr) (X' : Arr) (t : ℝ) (hX : Path g X X' t) : Path g (fun t => r.w1 (X t)) (r.w1 X') t := by
  unfold Response.w1
  cases r.kernels with
  | none => exact hX
  | some w => exact wMul_deriv g.S w.1 X X' t hX

theorem w1_dp (g : Grid) (r : Response) (X Y : Arr) : dotPairs g.S (r.w1 X) Y = dotPairs g.S X (r.w1 Y) := by
  unfold Response.w1
  cases r.kernels with
  | none => rfl
  | some w => exact (dp_wMul g.S w.1 X Y).symm

/-- Change of the energy of the fluid. -/
theorem A_deriv (g : Grid) (ok : GridOK g) (r : Response) (n : Nat) (hn : 0 < n) (phi : ℝ → Arr) (phi' : Arr) (shape : ℝ → Nat → Field) (shape' : Nat → Field) (t : ℝ)
    (hp : Path g phi phi' t) (hs : ShapePath g n shape shape' t) (hF : Smooth g r (phi t)) :
    HasDerivAt (fun t => integral g (r.A g (shape t 0) (shape t (n - 1)) (phi t)))
      (g.detR * (dotPairs g.S (r.w1 fun i => -divergence g.S g.G (fun k => fftJ g.S fun j => shape t 0 j * r.Fd' (r.Dphi g (phi t) j) k) i) phi'
          + (if r.ions then dotPairs g.S (fftJ g.S fun j => shape t (n - 1) j * r.Fi' (fftI g.S (phi t) j)) phi' else 0))
        + g.dV * ∑ j ∈ Finset.range (nr g.S), (r.Fd (r.Dphi g (phi t) j) * shape' 0 j + (if r.ions then r.Fi (fftI g.S (phi t) j) else 0) * shape' (n - 1) j)) t := by
  unfold integral
  have h1 : ∀ j ∈ Finset.range (nr g.S), HasDerivAt (fun t => r.A g (shape t 0) (shape t (n - 1)) (phi t) j)
      ((dot3 (fun k => shape t 0 j * r.Fd' (r.Dphi g (phi t) j) k) (fun k => gradPhi g (r.w1 phi') k j)
        + (if r.ions then shape t (n - 1) j * r.Fi' (fftI g.S (phi t) j) * fftI g.S phi' j else 0))
        + (r.Fd (r.Dphi g (phi t) j) * shape' 0 j + (if r.ions then r.Fi (fftI g.S (phi t) j) else 0) * shape' (n - 1) j)) t := by
    intro j hj
    have hj := Finset.mem_range.1 hj
    have a := hF.1 j hj (fun t => r.Dphi g (phi t) j) (fun k => gradPhi g (r.w1 phi') k j) t rfl
      (fun k => gradPhi_deriv g ok.1 _ _ t (w1_deriv g r phi phi' t hp) k j)
    have b := (hs 0 hn j hj).mul a
    unfold Response.A
    by_cases hi : r.ions = true
    · simp only [hi, if_true]
      have c := (hs (n - 1) (by omega) j hj).mul ((hF.2 hi j hj).comp t (fftI_deriv g.S phi phi' t hp j))
      refine (b.add c).congr_deriv ?_
      simp only [Function.comp]
      unfold dot3; ring
    · simp only [hi, if_false]
      refine (b.add (hasDerivAt_const t 0)).congr_deriv ?_
      unfold dot3; ring_nf
      simp
  refine ((HasDerivAt.fun_sum h1).const_mul g.dV).congr_deriv ?_
  rw [Finset.sum_add_distrib, Finset.sum_add_distrib, mul_add, mul_add,
    gradPhi_dp g ok.1 (fun k j => shape t 0 j * r.Fd' (r.Dphi g (phi t) j) k), ← ok.2, w1_dp]
  have e1 : dotPairs g.S (fun i => -divergence g.S g.G (fun k => fftJ g.S fun j => shape t 0 j * r.Fd' (r.Dphi g (phi t) j) k) i) (r.w1 phi')
      = -dotPairs g.S (divergence g.S g.G (fun k => fftJ g.S fun j => shape t 0 j * r.Fd' (r.Dphi g (phi t) j) k)) (r.w1 phi') := by
    have := dp_smul' g.S (divergence g.S g.G (fun k => fftJ g.S fun j => shape t 0 j * r.Fd' (r.Dphi g (phi t) j) k)) (r.w1 phi') (-1)
    simp only [Complex.ofReal_neg, Complex.ofReal_one, neg_mul, one_mul] at this
    exact this
  rw [e1]
  by_cases hi : r.ions = true
  · simp only [hi, if_true]
    rw [fftI_dp g.S ok.1 (fun j => shape t (n - 1) j * r.Fi' (fftI g.S (phi t) j))]
    ring
  · simp only [hi, if_false]
    simp
    ring

theorem rhoLiquid_dp (g : Grid) (ok : GridOK g) (r : Response) (X : Arr) (s : Field) :
    g.detR * dotPairs g.S X (r.rhoLiquid g s) = g.dV * ∑ j ∈ Finset.range (nr g.S),
      (match r.kernels with | some (_, Nw0) => fftI g.S (wMul Nw0 X) j | none => 0) * s j := by
  unfold Response.rhoLiquid
  cases r.kernels with
  | none => simp [dp_eq]
  | some w =>
    simp only
    have e : ∑ j ∈ Finset.range (nr g.S), fftI g.S (wMul w.2 X) j * s j = ∑ j ∈ Finset.range (nr g.S), s j * fftI g.S (wMul w.2 X) j :=
      Finset.sum_congr rfl fun j _ => mul_comm _ _
    rw [e, fftI_dp g.S ok.1, dp_wMul, ← ok.2, dp_comm g.S (wMul w.2 X), dp_wMul]
    ring

theorem rhoLiquid_deriv (g : Grid) (r : Response) (s : ℝ → Field) (s' : Field) (t : ℝ) (hs : ∀ j < nr g.S, HasDerivAt (fun t => s t j) (s' j) t) :
    Path g (fun t => r.rhoLiquid g (s t)) (r.rhoLiquid g s') t := by
  unfold Response.rhoLiquid
  cases r.kernels with
  | none => exact fun i _ => hasDerivAt_const _ _
  | some w => exact wMul_deriv g.S w.2 _ _ t fun i _ => fftJ_deriv g.S s s' t hs i

theorem KinvPhi_eq (g : Grid) (phi : Arr) : Response.KinvPhi g phi = fun i => ((-1 / (4 * Real.pi * g.detR) : ℝ) : ℂ) * opL g phi i := by
  funext i; unfold Response.KinvPhi; ring

theorem KinvPhi_deriv (g : Grid) (phi : ℝ → Arr) (phi' : Arr) (t : ℝ) (hp : Path g phi phi' t) :
    Path g (fun t => Response.KinvPhi g (phi t)) (Response.KinvPhi g phi') t := fun i hi => (opL_deriv g phi phi' t hp i hi).mul_const _

theorem grad_dp (g : Grid) (r : Response) (n : Nat) (shape : Nat → Field) (rho phi Y : Arr) :
    dotPairs g.S (r.grad g n shape rho phi) Y = g.detR *
      (dotPairs g.S (r.w1 fun i => -divergence g.S g.G (fun k => fftJ g.S fun j => shape 0 j * r.Fd' (r.Dphi g phi j) k) i) Y
        + (if r.ions then dotPairs g.S (fftJ g.S fun j => shape (n - 1) j * r.Fi' (fftI g.S phi j)) Y else 0)
        + dotPairs g.S (Response.KinvPhi g phi) Y - (dotPairs g.S rho Y + dotPairs g.S (r.rhoLiquid g (shape 0)) Y)) := by
  unfold Response.grad opO
  generalize (r.w1 fun i => -divergence g.S g.G (fun k => fftJ g.S fun j => shape 0 j * r.Fd' (r.Dphi g phi j) k) i) = W
  generalize Response.KinvPhi g phi = K
  generalize r.rhoLiquid g (shape 0) = R
  by_cases hi : r.ions = true
  · simp only [hi, if_true]
    generalize (fftJ g.S fun j => shape (n - 1) j * r.Fi' (fftI g.S phi j)) = Z
    rw [dp_smul', dp_sub', dp_add' g.S Y (fun i => W i + Z i) K, dp_add', dp_add']
  · have hi : r.ions = false := by simpa using hi
    simp only [hi, Bool.false_eq_true, if_false]
    rw [dp_smul', dp_sub', dp_add' g.S Y W K, dp_add']; ring

/-- **C82 (gradient of the minimised function).** The gradient that `compute` returns is the derivative of the value that it returns, for every change of the potential. -/
theorem C82_compute_partial (g : Grid) (ok : DotOK g) (r : Response) (A0 : ℝ) (n : Nat) (hn : 0 < n) (shape : Nat → Field) (rho : Arr)
    (phi : ℝ → Arr) (phi' : Arr) (t : ℝ) (hp : Path g phi phi' t) (hF : Smooth g r (phi t)) :
    HasDerivAt (fun t => r.compute g A0 n shape rho (phi t)) (dotHalf g.S (r.grad g n shape rho (phi t)) phi') t := by
  unfold Response.compute
  simp only [dot_dp g ok, dot_opO]
  have h1 := A_deriv g ok.1 r n hn phi phi' (fun _ => shape) (fun _ _ => 0) t hp (fun m _ j _ => hasDerivAt_const _ _) hF
  have h2 : HasDerivAt (fun t => dotPairs g.S (Response.KinvPhi g (phi t)) (phi t)) (2 * dotPairs g.S (Response.KinvPhi g (phi t)) phi') t := by
    refine (dp_deriv g.S _ phi _ phi' t (KinvPhi_deriv g phi phi' t hp) hp).congr_deriv ?_
    rw [KinvPhi_eq, KinvPhi_eq, dp_smul', dp_smul', ← opL_dp, dp_comm g.S phi']
    ring
  have h3 := dp_deriv g.S (fun _ => fun i => rho i + r.rhoLiquid g (shape 0) i) phi (fun _ => 0) phi' t (fun i _ => hasDerivAt_const _ _) hp
  refine ((((h2.const_mul g.detR).const_mul 0.5).const_add A0).add h1 |>.sub (h3.const_mul g.detR)).congr_deriv ?_
  have z : ∀ X, dotPairs g.S (fun _ => 0) X = 0 := fun X => by simp [dp_eq]
  rw [grad_dp, dp_add', z]
  simp only [mul_zero, Finset.sum_const_zero, add_zero]
  ring

theorem ites (P Q I : Prop) [Decidable P] [Decidable Q] [Decidable I] (a b c : ℝ) :
    -((if P then a else 0) + if Q ∧ I then b else 0) + (if P then c else 0) = (if P then -a + c else 0) + (if Q then -(if I then b else 0) else 0) := by
  by_cases hP : P <;> by_cases hQ : Q <;> by_cases hI : I <;> simp only [hP, hQ, hI, if_true, if_false, and_true, and_false, false_and, true_and] <;> ring

theorem rhoLiquid_none (g : Grid) (r : Response) (h : r.kernels.isSome = false) (s : Field) : r.rhoLiquid g s = fun _ => 0 := by
  unfold Response.rhoLiquid
  cases hk : r.kernels with
  | none => rfl
  | some w => rw [hk] at h; simp at h

/-- **C82 (gradients).** When the potential, the charge density and the shape functions change together, the rate of change of the electrostatic energy is given by the reported
derivatives with respect to charge density and shape functions, and minus the gradient of the minimised function applied to the change of the potential. -/
theorem C82_gradients_partial (g : Grid) (ok : DotOK g) (hd : g.detR ≠ 0) (r : Response) (n : Nat) (hn : 0 < n) (phi rho : ℝ → Arr) (phi' rho' : Arr)
    (shape : ℝ → Nat → Field) (shape' : Nat → Field) (t : ℝ) (hp : Path g phi phi' t) (hr : Path g rho rho' t) (hs : ShapePath g n shape shape' t)
    (hF : Smooth g r (phi t)) :
    HasDerivAt (fun t => r.adiel g n (shape t) (rho t) (phi t))
      (-dotHalf g.S (r.grad g n (shape t) (rho t) (phi t)) phi'
        + g.detR * dotHalf g.S (adiel_rho g (phi t) (rho t)) rho' + inner g n (r.adiel_shape g n (shape t) (phi t)) shape') t := by
  have e : ∀ t, r.adiel g n (shape t) (rho t) (phi t) = dotPairs g.S (phi t) (opL g (phi t)) * (1 / (8 * Real.pi))
      - integral g (r.A g (shape t 0) (shape t (n - 1)) (phi t))
      + g.detR * (dotPairs g.S (phi t) (rho t) + dotPairs g.S (phi t) (r.rhoLiquid g (shape t 0)))
      - 0.5 * (g.detR * dotPairs g.S (coulomb g (rho t)) (rho t))
      - 0.5 * (g.detR * dotPairs g.S (coulomb g (r.rhoLiquid g (shape t 0))) (r.rhoLiquid g (shape t 0))) := by
    intro t
    unfold Response.adiel
    simp only [dot_dp g ok, dot_opO, dp_add]
    congr 1
    by_cases hk : r.kernels.isSome = true
    · rw [if_pos hk]
    · rw [if_neg hk, rhoLiquid_none g r (by simpa using hk)]
      simp [dp_eq]
  simp only [e]
  have pl := rhoLiquid_deriv g r (fun t => shape t 0) (shape' 0) t (hs 0 hn)
  have h1 := A_deriv g ok.1 r n hn phi phi' shape shape' t hp hs hF
  have h2 := dp_deriv g.S phi _ phi' _ t hp (opL_deriv g phi phi' t hp)
  have h3 := (dp_deriv g.S phi rho phi' rho' t hp hr).add (dp_deriv g.S phi _ phi' _ t hp pl)
  have h4 := dp_deriv g.S _ rho _ rho' t (coulomb_deriv g rho rho' t hr) hr
  have h5 := dp_deriv g.S _ _ _ _ t (coulomb_deriv g _ _ t pl) pl
  refine ((((h2.mul_const _).sub h1).add (h3.const_mul g.detR)).sub ((h4.const_mul g.detR).const_mul 0.5) |>.sub
    ((h5.const_mul g.detR).const_mul 0.5)).congr_deriv ?_
  have hS : inner g n (r.adiel_shape g n (shape t) (phi t)) shape' =
      -(g.dV * ∑ j ∈ Finset.range (nr g.S), (r.Fd (r.Dphi g (phi t) j) * shape' 0 j + (if r.ions then r.Fi (fftI g.S (phi t) j) else 0) * shape' (n - 1) j))
      + g.detR * (dotPairs g.S (phi t) (r.rhoLiquid g (shape' 0)) - dotPairs g.S (coulomb g (r.rhoLiquid g (shape t 0))) (r.rhoLiquid g (shape' 0))) := by
    rw [← dp_sub', rhoLiquid_dp g ok.1]
    unfold inner
    rw [Finset.sum_comm, ← mul_neg, ← mul_add, ← Finset.sum_neg_distrib, ← Finset.sum_add_distrib]
    congr 1
    refine Finset.sum_congr rfl fun j _ => ?_
    rw [shape_sum n hn (fun m => r.adiel_shape g n (shape t) (phi t) m j)
      (fun b => if b = 0 then -r.Fd (r.Dphi g (phi t) j) + (match r.kernels with
        | some (_, Nw0) => fftI g.S (wMul Nw0 fun i => phi t i - coulomb g (r.rhoLiquid g (shape t 0)) i) j
        | none => 0) else -(if r.ions then r.Fi (fftI g.S (phi t) j) else 0)) (fun m => shape' m j)]
    · simp only [if_true, one_ne_zero, if_false]; ring
    · intro m
      unfold Response.adiel_shape
      simp only [one_ne_zero, if_true, if_false]
      cases r.kernels with
      | none => simpa using ites (m = 0) (m = n - 1) r.ions (r.Fd (r.Dphi g (phi t) j)) (r.Fi (fftI g.S (phi t) j)) 0
      | some w => exact ites (m = 0) (m = n - 1) r.ions (r.Fd (r.Dphi g (phi t) j)) (r.Fi (fftI g.S (phi t) j)) _
  rw [hS, dot_dp g ok, grad_dp, dot_dp g ok, KinvPhi_eq, dp_smul']
  unfold adiel_rho
  rw [dp_sub', dp_comm g.S (coulomb g rho'), coulomb_dp, dp_comm g.S (coulomb g (r.rhoLiquid g (shape' 0))), coulomb_dp, opL_dp g (phi t) phi', dp_comm g.S (rho t) phi',
    dp_comm g.S (r.rhoLiquid g (shape t 0)) phi', dp_comm g.S phi' (opL g (phi t))]
  have hpi := Real.pi_pos.ne'
  field_simp
  ring

/-- **C82 (energy).** Without nonlocal response the reported electrostatic energy is minus the minimised function, with the constant that `set_internal` stores. -/
theorem C82_energy_partial (g : Grid) (ok : DotOK g) (hd : g.detR ≠ 0) (r : Response) (hk : r.kernels = none) (n : Nat) (shape : Nat → Field) (rho phi : Arr) :
    r.adiel g n shape rho phi = -r.compute g (0.5 * dotHalf g.S rho (opO g (coulomb g rho))) n shape rho phi := by
  unfold Response.adiel Response.compute
  simp only [dot_dp g ok, dot_opO, hk, Option.isSome_none, Bool.false_eq_true, if_false, dp_add, dp_add']
  rw [KinvPhi_eq, dp_smul', coulomb_dp, dp_comm g.S phi rho, dp_comm g.S phi (r.rhoLiquid _ _), opL_dp]
  have hpi := Real.pi_pos.ne'
  field_simp
  ring

/-- **C82 (gradients at the minimum).** Once the gradient of the minimised function vanishes, the energy changes at the reported rates when charge density and shape
functions change, whatever the change of the potential. -/
theorem C82_solved_partial (g : Grid) (ok : DotOK g) (hd : g.detR ≠ 0) (r : Response) (n : Nat) (hn : 0 < n) (phi rho : ℝ → Arr) (phi' rho' : Arr)
    (shape : ℝ → Nat → Field) (shape' : Nat → Field) (t : ℝ) (hp : Path g phi phi' t) (hr : Path g rho rho' t) (hs : ShapePath g n shape shape' t)
    (hF : Smooth g r (phi t)) (sol : ∀ i : Nat, i < nG g.S → r.grad g n (shape t) (rho t) (phi t) i = 0) :
    HasDerivAt (fun t => r.adiel g n (shape t) (rho t) (phi t))
      (g.detR * dotHalf g.S (adiel_rho g (phi t) (rho t)) rho' + inner g n (r.adiel_shape g n (shape t) (phi t)) shape') t := by
  refine (C82_gradients_partial g ok hd r n hn phi rho phi' rho' shape shape' t hp hr hs hF).congr_deriv ?_
  rw [dot_dp g ok (r.grad g n _ _ _), dp_congr g.S (X' := fun _ => 0) sol (fun _ _ => rfl)]
  simp [dp_eq]

/-- **C82 (response functions).** The tables of C80 give response functions for which the theorems above hold: they are what the program evaluates at each point, and they are differentiable with
the derivatives that the program evaluates, at all potentials where the ionic energy is finite. -/
theorem C82_tables (d : Dielectric) (hp : 0 < d.pByT) (fuel : Nat) (samples : List ℝ) (ht : d.table fuel = some samples)
    (m : Screening) (fuel' : Nat) (samples' : List ℝ) (ht' : m.table fuel' = some samples') (kernels : Option ((Nat → ℝ) × (Nat → ℝ))) :
    ∃ (coeff coeff' : Spline.Arr) (r : Response), Spline.getCoeff samples false = .ok coeff ∧ Spline.getCoeff samples' true = .ok coeff' ∧
      r.ions = true ∧ r.kernels = kernels ∧ (∀ s E, d.apply coeff 512 s E = .ok (s * r.Fd E, fun k => s * r.Fd' E k, r.Fd E)) ∧
      (∀ s phi, m.apply coeff' 512 s phi = .ok (s * r.Fi phi, s * r.Fi' phi, r.Fi phi)) ∧
      ∀ (g : Grid) (phi : Arr), (∀ j < nr g.S, radial coeff' 512 (m.mapped (fftI g.S phi j)) ≠ .ok 0) → Smooth g r phi := by
  obtain ⟨coeff, F, F', h1, h2, h3, _⟩ := C80_dielectric d hp fuel samples ht
  obtain ⟨coeff', Fi, Fi', k1, k2, k3, _⟩ := C80_screening m fuel' samples' ht'
  exact ⟨coeff, coeff', ⟨F, F', true, Fi, Fi', kernels⟩, h1, k1, rfl, rfl, h2, k2, fun g phi h =>
    ⟨fun j _ c c' t _ hc => h3 c c' t hc, fun _ j hj => k3 _ (h j hj)⟩⟩

/-! ### Cases -/

/-- A grid with three different dimensions. -/
def exGrid : Grid := ⟨⟨2, 3, 4⟩, fun i j => if i = j then 1 else 0, 12, 0.5⟩

theorem exGrid_ok : DotOK exGrid := ⟨⟨⟨by decide, by decide, by decide⟩, by norm_num [exGrid, nr]⟩, Or.inr rfl⟩

/-- Water with ions in separate cavities that vary over the cell: the charge density that goes with any potential. -/
example : ∃ (p : Linear) (shape : Nat → Field) (phi rho : Arr), shape 0 ≠ shape 1 ∧ phi 1 = 1 ∧
    (∀ i : Nat, i < nG exGrid.S → p.hessian exGrid (shape 0) (shape (2 - 1)) phi i = rho i) ∧ (∀ m j, 0 ≤ shape m j) ∧ 1 ≤ p.epsBulk ∧ 0 < p.k2factor :=
  ⟨⟨78.4, 0.1, fun _ => 0⟩, fun m j => 1 / (1 + m + j), fun i => i, _, fun h => by have := congrFun h 0; norm_num at this, by norm_num,
    fun i _ => rfl, fun m j => by positivity, by norm_num, by norm_num⟩

example : Path exGrid (fun t i => (t : ℂ) * i) (fun i => i) 1 := fun i _ => by
  simpa using ((hasDerivAt_id (1 : ℝ)).ofReal_comp).mul_const ((i : ℤ) : ℂ)

/-- A response that is not quadratic. -/
example : Smooth exGrid ⟨fun E => (dot3 E E) ^ 2, fun E k => 4 * dot3 E E * E k, true, fun v => v ^ 4, fun v => 4 * v ^ 3, some (fun _ => 1, fun _ => 2)⟩ (fun i => i) := by
  refine ⟨fun j _ c c' t _ hc => ?_, fun _ j _ => by simpa using hasDerivAt_pow 4 _⟩
  unfold dot3
  refine (((((hc 0).mul (hc 0)).add ((hc 1).mul (hc 1))).add ((hc 2).mul (hc 2))).pow 2).congr_deriv ?_
  simp only [Pi.add_apply, Pi.mul_apply]; push_cast; ring

end
end Jdftx.PCM
