import Verif.Lemmas.PspLocal

/-!
# Lemmas for C102: nonlocal part
-/
namespace Jdftx.Psp
noncomputable section
open M3 Real
open CoulK (wave)
open Ewald (toR outer displace strained contract)
open scoped ComplexConjugate Matrix
open MatFn (conj_deriv re_deriv ofReal_deriv MDeriv)

variable {np nb nG n : ℕ}

/-- Energy of one atom with projections `A`. -/
def atomE (c : Nonlocal np nb nG) (A : Matrix (Fin np) (Fin nb) ℂ) : ℝ :=
  (Matrix.trace (Matrix.diagonal (fun b => (c.F b : ℂ)) * Aᴴ * (c.M * A))).re + (match c.Q with | some Q => (Matrix.trace (c.gradOverlap * (Aᴴ * Q * A))).re | none => 0)

theorem projections_eq (c : Nonlocal np nb nG) (G : Mat ℝ) (x : V3 ℝ) : projections c G x = (vnl c G x)ᴴ * c.C := by
  ext p b
  simp only [projections, Matrix.of_apply, Matrix.mul_apply, Matrix.conjTranspose_apply, Complex.star_def]

theorem energy_eq (c : Nonlocal np nb nG) (G : Mat ℝ) (pos : Fin n → V3 ℝ) : energy c G pos = c.w * ∑ a, atomE c (projections c G (pos a)) := by
  simp only [energy, enl, atomE, Finset.sum_add_distrib]
  cases c.Q <;> rfl

theorem re_trace_dagger {m : ℕ} (A : Matrix (Fin m) (Fin m) ℂ) : (Matrix.trace Aᴴ).re = (Matrix.trace A).re := by
  rw [Matrix.trace_conjTranspose]; simp

/-- Change of a quadratic form of the projections. -/
theorem quad_deriv (L : Matrix (Fin nb) (Fin nb) ℂ) (M : Matrix (Fin np) (Fin np) ℂ) (hL : L.IsHermitian) (hM : M.IsHermitian)
    (A : ℝ → Matrix (Fin np) (Fin nb) ℂ) (A' : Matrix (Fin np) (Fin nb) ℂ) (h : MDeriv A A' 0) :
    HasDerivAt (fun t => (Matrix.trace (L * (A t)ᴴ * (M * A t))).re) (2 * (Matrix.trace (M * A 0 * L * A'ᴴ)).re) 0 := by
  have h1 := (((MDeriv.const L 0).mul h.dagger).mul ((MDeriv.const M 0).mul h)).re_trace
  refine h1.congr_deriv ?_
  simp only [Matrix.zero_mul, zero_add, Matrix.trace_add, Complex.add_re]
  have e1 : (Matrix.trace (L * A'ᴴ * (M * A 0))).re = (Matrix.trace (M * A 0 * L * A'ᴴ)).re := by
    rw [Matrix.trace_mul_comm, Matrix.mul_assoc (M * A 0)]
  have e2 : (Matrix.trace (L * (A 0)ᴴ * (M * A'))).re = (Matrix.trace (M * A 0 * L * A'ᴴ)).re := by
    rw [← re_trace_dagger]
    simp only [Matrix.conjTranspose_mul, Matrix.conjTranspose_conjTranspose, hL.eq, hM.eq]
    rw [Matrix.mul_assoc, Matrix.trace_mul_comm]
    simp only [Matrix.mul_assoc]
  rw [e1, e2]; ring

theorem diag_hermitian (F : Fin nb → ℝ) : (Matrix.diagonal (fun b => (F b : ℂ))).IsHermitian := by
  unfold Matrix.IsHermitian
  rw [Matrix.diagonal_conjTranspose]
  congr 1
  funext b
  simp

theorem atomE_deriv (c : Nonlocal np nb nG) (hc : c.OK) (A : ℝ → Matrix (Fin np) (Fin nb) ℂ) (A' : Matrix (Fin np) (Fin nb) ℂ) (h : MDeriv A A' 0) :
    HasDerivAt (fun t => atomE c (A t)) (2 * (Matrix.trace (eA c (A 0) * A'ᴴ)).re) 0 := by
  have h1 := quad_deriv _ c.M (diag_hermitian c.F) hc.M A A' h
  unfold atomE eA henl
  cases hQ : c.Q with
  | none =>
    simp only [add_zero]
    exact h1
  | some Q =>
    simp only [Matrix.add_mul, Matrix.trace_add, Complex.add_re]
    have h2 := quad_deriv c.gradOverlap Q hc.overlap (hc.Q Q hQ) A A' h
    have e : (fun t => (Matrix.trace (c.gradOverlap * (A t)ᴴ * (Q * A t))).re) = fun t => (Matrix.trace (c.gradOverlap * ((A t)ᴴ * Q * A t))).re := by
      funext t; simp only [Matrix.mul_assoc]
    rw [e] at h2
    refine (h1.add h2).congr_deriv ?_
    ring

/-- Projections change with the projectors. -/
theorem proj_deriv (c : Nonlocal np nb nG) (V : ℝ → Matrix (Fin nG) (Fin np) ℂ) (V' : Matrix (Fin nG) (Fin np) ℂ) (h : MDeriv V V' 0) :
    MDeriv (fun t => (V t)ᴴ * c.C) (V'ᴴ * c.C) 0 := by
  have := h.dagger.mul (MDeriv.const c.C 0)
  simpa using this

/-! ### Forces -/

theorem vnl_pos_deriv (c : Nonlocal np nb nG) (G : Mat ℝ) (x u : V3 ℝ) :
    MDeriv (fun t => vnl c G (fun k => x k + t * u k)) (Matrix.of fun i p => (⟨0, -2 * π * dot u (kpG c i)⟩ : ℂ) * vnl c G x i p) 0 := by
  intro i p
  simp only [vnl, Matrix.of_apply]
  have hk : ∀ k, HasDerivAt (fun t : ℝ => x k + t * u k) (u k) 0 := fun k => by
    simpa using ((hasDerivAt_id (0 : ℝ)).mul_const (u k)).const_add (x k)
  have hd : HasDerivAt (fun t => -2 * π * dot (fun k => x k + t * u k) (kpG c i)) (-2 * π * dot u (kpG c i)) 0 := by
    unfold dot
    exact ((((hk 0).mul_const _).add ((hk 1).mul_const _)).add ((hk 2).mul_const _)).const_mul _
  have := (cis_deriv hd).const_mul ((prefac (c.proj p) (qvec c G i) : ℝ) : ℂ)
  refine this.congr_deriv ?_
  simp only [zero_mul, add_zero]
  ring

/-- Cartesian derivatives combine to derivatives along lattice directions. -/
theorem dVnl_sum (c : Nonlocal np nb nG) (R : Mat ℝ) (hR : det R ≠ 0) (x u : V3 ℝ) :
    (Matrix.of fun i p => (⟨0, -2 * π * dot u (kpG c i)⟩ : ℂ) * vnl c (Basis.G R) x i p : Matrix (Fin nG) (Fin np) ℂ)
      = -∑ j, ∑ k, ((u j * R k j : ℝ) : ℂ) • dVnl c (Basis.G R) x k := by
  ext i p
  have hw := fun j => congrFun (CoulK.wave_R R hR (kpG c i)) j
  have h0 := hw 0
  have h1 := hw 1
  have h2 := hw 2
  have hcol : ∀ k, dot c.k (column (Basis.G R) k) + dot (toR (c.iG i)) (column (Basis.G R) k) = wave R (kpG c i) k := by
    intro k
    simp only [wave, CoulK.mulVM_dot, kpG, dot]; ring
  simp only [Matrix.of_apply, Matrix.neg_apply, Matrix.sum_apply, Matrix.smul_apply, dVnl, smul_eq_mul, hcol]
  simp only [← mul_assoc, ← Finset.sum_mul, ← neg_mul]
  congr 1
  have e : ∀ j k, ((u j * R k j : ℝ) : ℂ) * ⟨0, wave R (kpG c i) k⟩ = ⟨0, u j * R k j * wave R (kpG c i) k⟩ := fun j k => by
    apply Complex.ext <;> simp
  simp only [e, Fin.sum_univ_three]
  simp only [mulVM] at h0 h1 h2
  apply Complex.ext
  · simp
  · simp only [Complex.neg_im, Complex.add_im, dot]
    linear_combination u 0 * h0 + u 1 * h1 + u 2 * h2

theorem nonlocalForce_sum (c : Nonlocal np nb nG) (R : Mat ℝ) (hR : det R ≠ 0) (x u : V3 ℝ) :
    c.w * (2 * (Matrix.trace (eA c ((vnl c (Basis.G R) x)ᴴ * c.C) * ((Matrix.of fun i p => (⟨0, -2 * π * dot u (kpG c i)⟩ : ℂ) * vnl c (Basis.G R) x i p : Matrix (Fin nG) (Fin np) ℂ)ᴴ * c.C)ᴴ)).re)
      = -∑ j, nonlocalForce c R x j * u j := by
  rw [dVnl_sum c R hR]
  simp only [Matrix.conjTranspose_mul, Matrix.conjTranspose_conjTranspose, Matrix.mul_neg, Matrix.mul_sum, Matrix.trace_neg, Matrix.trace_sum, Matrix.mul_smul, Matrix.trace_smul,
    Complex.neg_re, Complex.re_sum, smul_eq_mul, Complex.re_ofReal_mul]
  simp only [nonlocalForce, Matrix.conjTranspose_mul, Matrix.conjTranspose_conjTranspose, mulMV, M3.transpose, Fin.sum_univ_three]
  ring

theorem displace_self (pos : Fin n → V3 ℝ) (a : Fin n) (u : V3 ℝ) (t : ℝ) : displace pos a u t a = fun k => pos a k + t * u k := by
  funext k; simp [displace]

theorem displace_ne (pos : Fin n → V3 ℝ) (a b : Fin n) (h : b ≠ a) (u : V3 ℝ) (t : ℝ) : displace pos a u t b = pos b := by
  funext k; simp [displace, h]

/-! ### Stress -/

theorem length_dot (q : V3 ℝ) : Basis.length q = sqrt (dot q q) := rfl

theorem invLen_eq (q : V3 ℝ) : invLen q = (Basis.length q)⁻¹ := by
  unfold invLen
  split
  · rw [one_div]
  · rename_i h; rw [not_ne_iff.1 h, inv_zero]

theorem length_ne (q : V3 ℝ) (h : q ≠ 0) : Basis.length q ≠ 0 := by
  rw [length_dot]
  exact fun hz => h (CoulK.dot_self_zero q (by
    have := mul_self_sqrt (CoulK.dot_self_nonneg q)
    rw [hz] at this; rw [← this]; ring))

theorem length_sq (q : V3 ℝ) : Basis.length q * Basis.length q = dot q q := mul_self_sqrt (CoulK.dot_self_nonneg q)

theorem hat_unit (q : V3 ℝ) (h : q ≠ 0) : dot (hat q) (hat q) = 1 := by
  have hl := length_ne q h
  have hs := length_sq q
  rw [show hat q = fun j => q j * (Basis.length q)⁻¹ from funext fun j => by rw [hat, invLen_eq]]
  have : dot (fun j => q j * (Basis.length q)⁻¹) (fun j => q j * (Basis.length q)⁻¹) = dot q q * ((Basis.length q)⁻¹ * (Basis.length q)⁻¹) := by
    simp only [dot]; ring
  rw [this, ← hs]; field_simp

/-- Derivative of the prefactor of a projector with respect to the wave vector, as in the stress calculation. -/
def VYprime (p : Proj) (q : V3 ℝ) (j : Fin 3) : ℝ :=
  p.V (Basis.length q) * p.dY (hat q) j * invLen q + hat q j * (p.dV (Basis.length q) * p.Y (hat q) - p.V (Basis.length q) * invLen q * dot (p.dY (hat q)) (hat q))

theorem prefac_deriv (p : Proj) (hp : p.OK) (q : ℝ → V3 ℝ) (q' : V3 ℝ) (h0 : q 0 ≠ 0) (h : ∀ k, HasDerivAt (fun t => q t k) (q' k) 0) :
    HasDerivAt (fun t => prefac p (q t)) (∑ j, VYprime p (q 0) j * q' j) 0 := by
  have hl := length_ne _ h0
  have hsq : HasDerivAt (fun t => dot (q t) (q t)) (2 * dot (q 0) q') 0 := by
    unfold dot
    refine ((((h 0).mul (h 0)).add ((h 1).mul (h 1))).add ((h 2).mul (h 2))).congr_deriv ?_
    ring
  have hlen : HasDerivAt (fun t => Basis.length (q t)) (dot (q 0) q' / Basis.length (q 0)) 0 := by
    have h1 := hsq.sqrt (fun hz => h0 (CoulK.dot_self_zero _ hz))
    refine h1.congr_deriv ?_
    rw [← length_dot]; field_simp
  have hhat : ∀ k, HasDerivAt (fun t => hat (q t) k) (q' k * invLen (q 0) + q 0 k * (-(dot (q 0) q' / Basis.length (q 0)) / Basis.length (q 0) ^ 2)) 0 := by
    intro k
    simp only [hat, invLen_eq]
    exact (h k).mul (hlen.inv hl)
  have hY := hp.Y (fun t => hat (q t)) _ (hat_unit _ h0) hhat
  have hV := (hp.V _ hl).comp (0 : ℝ) hlen
  refine (hY.mul hV).congr_deriv ?_
  have hid : dot (q 0) q' / Basis.length (q 0) = ∑ j, hat (q 0) j * q' j := by
    simp only [Fin.sum_univ_three, hat, invLen_eq, dot]; field_simp
  simp only [Function.comp]
  rw [hid]
  simp only [VYprime, Fin.sum_univ_three, dot, hat, invLen_eq]
  field_simp
  ring

theorem prefac_deriv' (p : Proj) (hp : p.OK) (q : ℝ → V3 ℝ) (q' : V3 ℝ) (h0 : q 0 = 0 → ∀ t, q t = 0) (h : ∀ k, HasDerivAt (fun t => q t k) (q' k) 0) :
    HasDerivAt (fun t => prefac p (q t)) (if q 0 = 0 then 0 else ∑ j, VYprime p (q 0) j * q' j) 0 := by
  split
  · rename_i hz
    have := h0 hz
    simp only [this]
    exact hasDerivAt_const _ _
  · exact prefac_deriv p hp q q' ‹_› h

/-- The projectors with other wave vectors but the same phases. -/
def vnlAt (c : Nonlocal np nb nG) (x : V3 ℝ) (q : Fin nG → V3 ℝ) : Matrix (Fin nG) (Fin np) ℂ :=
  Matrix.of fun i p => (prefac (c.proj p) (q i) : ℂ) * Euler.cis (-2 * π * dot x (kpG c i))

theorem vnl_at (c : Nonlocal np nb nG) (G : Mat ℝ) (x : V3 ℝ) : vnl c G x = vnlAt c x (qvec c G) := rfl

/-- Wave vectors that change linearly with the strain: the projectors change by the components of the stress calculation. -/
theorem vnlAt_deriv (c : Nonlocal np nb nG) (hc : c.OK) (G : Mat ℝ) (x : V3 ℝ) (e : Mat ℝ) (q : ℝ → Fin nG → V3 ℝ) (hq : q 0 = qvec c G)
    (h0 : ∀ i, q 0 i = 0 → ∀ t, q t i = 0) (h : ∀ i k, HasDerivAt (fun t => q t i k) (-mulVM (q 0 i) e k) 0) :
    MDeriv (fun t => vnlAt c x (q t)) (∑ i, ∑ j, (e i j : ℂ) • vnlStress c G x i j) 0 := by
  intro m p
  have h1 := prefac_deriv' (c.proj p) (hc.proj p) (fun t => q t m) _ (h0 m) (h m)
  have h2 := (ofReal_deriv h1).mul_const (Euler.cis (-2 * π * dot x (kpG c m)))
  refine h2.congr_deriv ?_
  simp only [Matrix.sum_apply, Matrix.smul_apply, vnlStress, Matrix.of_apply, smul_eq_mul, ← mul_assoc, ← Finset.sum_mul]
  congr 1
  rw [hq]
  have e1 : ∀ i j, prefacStress (c.proj p) (qvec c G m) i j = -qvec c G m i * VYprime (c.proj p) (qvec c G m) j := fun i j => rfl
  simp only [e1]
  push_cast
  split
  · rename_i hz
    simp [hz]
  · simp only [Fin.sum_univ_three, mulVM]
    push_cast
    ring

theorem stress_sum (c : Nonlocal np nb nG) (R : Mat ℝ) (x : V3 ℝ) (e : Mat ℝ) :
    c.w * (2 * (Matrix.trace (eA c ((vnl c (Basis.G R) x)ᴴ * c.C) * ((∑ i, ∑ j, (e i j : ℂ) • vnlStress c (Basis.G R) x i j)ᴴ * c.C)ᴴ)).re)
      = ∑ i, ∑ j, stressIJ c R x i j * e i j := by
  simp only [Matrix.conjTranspose_mul, Matrix.conjTranspose_conjTranspose, Matrix.mul_sum, Matrix.trace_sum, Matrix.mul_smul, Matrix.trace_smul,
    Complex.re_sum, smul_eq_mul, Complex.re_ofReal_mul]
  simp only [stressIJ, Matrix.conjTranspose_mul, Matrix.conjTranspose_conjTranspose, Fin.sum_univ_three]
  ring

/-- The energy of an atom along a curve of wave vectors. -/
theorem curve_deriv (c : Nonlocal np nb nG) (hc : c.OK) (R : Mat ℝ) (x : V3 ℝ) (e : Mat ℝ) (q : ℝ → Fin nG → V3 ℝ) (hq : q 0 = qvec c (Basis.G R))
    (h0 : ∀ i, q 0 i = 0 → ∀ t, q t i = 0) (h : ∀ i k, HasDerivAt (fun t => q t i k) (-mulVM (q 0 i) e k) 0) :
    HasDerivAt (fun t => c.w * atomE c ((vnlAt c x (q t))ᴴ * c.C)) (∑ i, ∑ j, stressIJ c R x i j * e i j) 0 := by
  have h1 := (atomE_deriv c hc _ _ (proj_deriv c _ _ (vnlAt_deriv c hc (Basis.G R) x e q hq h0 h))).const_mul c.w
  refine h1.congr_deriv ?_
  rw [← stress_sum c R x e, hq, vnl_at]

/-- Quadratic forms of projections only depend on the sums over projectors. -/
theorem quad_rot (c : Nonlocal np nb nG) (L : Matrix (Fin nb) (Fin nb) ℂ) (M : Matrix (Fin np) (Fin np) ℂ) (x : V3 ℝ) (q q2 : Fin nG → V3 ℝ)
    (h : ∀ i i', ∑ p, ∑ p', (prefac (c.proj p) (q2 i) : ℂ) * M p p' * (prefac (c.proj p') (q2 i') : ℂ) = ∑ p, ∑ p', (prefac (c.proj p) (q i) : ℂ) * M p p' * (prefac (c.proj p') (q i') : ℂ)) :
    Matrix.trace (L * ((vnlAt c x q2)ᴴ * c.C)ᴴ * (M * ((vnlAt c x q2)ᴴ * c.C))) = Matrix.trace (L * ((vnlAt c x q)ᴴ * c.C)ᴴ * (M * ((vnlAt c x q)ᴴ * c.C))) := by
  have key : ∀ r : Fin nG → V3 ℝ, (vnlAt c x r * M * (vnlAt c x r)ᴴ) = Matrix.of fun i i' =>
      Euler.cis (-2 * π * dot x (kpG c i)) * conj (Euler.cis (-2 * π * dot x (kpG c i'))) * ∑ p, ∑ p', (prefac (c.proj p) (r i) : ℂ) * M p p' * (prefac (c.proj p') (r i') : ℂ) := by
    intro r
    ext i i'
    simp only [Matrix.mul_apply, vnlAt, Matrix.of_apply, Matrix.conjTranspose_apply, Complex.star_def, map_mul, Complex.conj_ofReal, Finset.sum_mul, Finset.mul_sum]
    rw [Finset.sum_comm]
    refine Finset.sum_congr rfl fun p _ => Finset.sum_congr rfl fun p' _ => ?_
    ring
  have e : ∀ r : Fin nG → V3 ℝ, L * ((vnlAt c x r)ᴴ * c.C)ᴴ * (M * ((vnlAt c x r)ᴴ * c.C)) = L * c.Cᴴ * (vnlAt c x r * M * (vnlAt c x r)ᴴ) * c.C := by
    intro r
    simp only [Matrix.conjTranspose_mul, Matrix.conjTranspose_conjTranspose, Matrix.mul_assoc]
  rw [e, e, key, key]
  simp only [h]

theorem atomE_rot (c : Nonlocal np nb nG) (hM : RotInv c.proj c.M) (hQ : ∀ Q, c.Q = some Q → RotInv c.proj Q) (x : V3 ℝ) (q : Fin nG → V3 ℝ) (U : Mat ℝ) (hU : Orth U) :
    atomE c ((vnlAt c x fun i => mulMV U (q i))ᴴ * c.C) = atomE c ((vnlAt c x q)ᴴ * c.C) := by
  unfold atomE
  rw [quad_rot c _ c.M x q (fun i => mulMV U (q i)) fun i i' => hM U hU (q i) (q i')]
  cases hq : c.Q with
  | none => rfl
  | some Q =>
    have e : ∀ r : Fin nG → V3 ℝ, c.gradOverlap * (((vnlAt c x r)ᴴ * c.C)ᴴ * Q * ((vnlAt c x r)ᴴ * c.C)) = c.gradOverlap * ((vnlAt c x r)ᴴ * c.C)ᴴ * (Q * ((vnlAt c x r)ᴴ * c.C)) := by
      intro r; simp only [Matrix.mul_assoc]
    simp only [e]
    rw [quad_rot c _ Q x q (fun i => mulMV U (q i)) fun i i' => hQ Q hq U hU (q i) (q i')]

/-- Rotation about an axis. -/
def rotX (t : ℝ) : Mat ℝ := ofCols (vec 1 0 0) (vec 0 (cos t) (sin t)) (vec 0 (-sin t) (cos t))
def rotY (t : ℝ) : Mat ℝ := ofCols (vec (cos t) 0 (-sin t)) (vec 0 1 0) (vec (sin t) 0 (cos t))
def rotZ (t : ℝ) : Mat ℝ := ofCols (vec (cos t) (sin t) 0) (vec (-sin t) (cos t) 0) (vec 0 0 1)

theorem rotX_orth (t : ℝ) : Orth (rotX t) := by
  have h := cos_sq_add_sin_sq t
  funext i j
  fin_cases i <;> fin_cases j <;> simp [mulMM, M3.transpose, rotX, ofCols, vec, diag] <;> linarith
theorem rotY_orth (t : ℝ) : Orth (rotY t) := by
  have h := cos_sq_add_sin_sq t
  funext i j
  fin_cases i <;> fin_cases j <;> simp [mulMM, M3.transpose, rotY, ofCols, vec, diag] <;> linarith
theorem rotZ_orth (t : ℝ) : Orth (rotZ t) := by
  have h := cos_sq_add_sin_sq t
  funext i j
  fin_cases i <;> fin_cases j <;> simp [mulMM, M3.transpose, rotZ, ofCols, vec, diag] <;> linarith

/-- Rotations do not change the energy, so the derivative along them vanishes. -/
theorem rot_zero (c : Nonlocal np nb nG) (hc : c.OK) (hM : RotInv c.proj c.M) (hQ : ∀ Q, c.Q = some Q → RotInv c.proj Q) (R : Mat ℝ) (x : V3 ℝ) (e : Mat ℝ) (U : ℝ → Mat ℝ)
    (hU : ∀ t, Orth (U t)) (hU0 : ∀ q, mulMV (U 0) q = q) (hd : ∀ q k, HasDerivAt (fun t => mulMV (U t) q k) (-mulVM q e k) 0) :
    ∑ i, ∑ j, stressIJ c R x i j * e i j = 0 := by
  have h := curve_deriv c hc R x e (fun t i => mulMV (U t) (qvec c (Basis.G R) i)) (funext fun i => hU0 _)
    (fun i hi t => by rw [hU0] at hi; rw [hi]; funext k; simp [mulMV]) (fun i k => by rw [hU0]; exact hd _ k)
  have e1 : (fun t => c.w * atomE c ((vnlAt c x fun i => mulMV (U t) (qvec c (Basis.G R) i))ᴴ * c.C)) = fun _ => c.w * atomE c ((vnlAt c x (qvec c (Basis.G R)))ᴴ * c.C) := by
    funext t
    rw [atomE_rot c hM hQ x _ (U t) (hU t)]
  rw [e1] at h
  exact h.unique (hasDerivAt_const _ _)

theorem stressIJ_symm (c : Nonlocal np nb nG) (hc : c.OK) (hM : RotInv c.proj c.M) (hQ : ∀ Q, c.Q = some Q → RotInv c.proj Q) (R : Mat ℝ) (x : V3 ℝ) :
    stressIJ c R x 2 1 = stressIJ c R x 1 2 ∧ stressIJ c R x 0 2 = stressIJ c R x 2 0 ∧ stressIJ c R x 1 0 = stressIJ c R x 0 1 := by
  have hs := (hasDerivAt_sin 0).congr_deriv cos_zero
  have hco := (hasDerivAt_cos 0).congr_deriv (by simp : -sin (0 : ℝ) = 0)
  refine ⟨?_, ?_, ?_⟩
  · have h := rot_zero c hc hM hQ R x (ofCols (vec 0 0 0) (vec 0 0 1) (vec 0 (-1) 0)) rotX rotX_orth
      (fun q => by funext k; fin_cases k <;> simp [mulMV, rotX, ofCols, vec])
      (fun q k => by
        fin_cases k <;> simp [mulMV, mulVM, rotX, ofCols, vec]
        · exact hasDerivAt_const _ _
        · exact ((hco.mul_const (q 1)).add (hs.mul_const (q 2)).neg).congr_deriv (by ring)
        · exact ((hs.mul_const (q 1)).add (hco.mul_const (q 2))).congr_deriv (by ring))
    simp [Fin.sum_univ_three, ofCols, vec] at h
    linarith
  · have h := rot_zero c hc hM hQ R x (ofCols (vec 0 0 (-1)) (vec 0 0 0) (vec 1 0 0)) rotY rotY_orth
      (fun q => by funext k; fin_cases k <;> simp [mulMV, rotY, ofCols, vec])
      (fun q k => by
        fin_cases k <;> simp [mulMV, mulVM, rotY, ofCols, vec]
        · exact ((hco.mul_const (q 0)).add (hs.mul_const (q 2))).congr_deriv (by ring)
        · exact hasDerivAt_const _ _
        · exact ((hs.mul_const (q 0)).neg.add (hco.mul_const (q 2))).congr_deriv (by ring))
    simp [Fin.sum_univ_three, ofCols, vec] at h
    linarith
  · have h := rot_zero c hc hM hQ R x (ofCols (vec 0 1 0) (vec (-1) 0 0) (vec 0 0 0)) rotZ rotZ_orth
      (fun q => by funext k; fin_cases k <;> simp [mulMV, rotZ, ofCols, vec])
      (fun q k => by
        fin_cases k <;> simp [mulMV, mulVM, rotZ, ofCols, vec]
        · exact ((hco.mul_const (q 0)).add (hs.mul_const (q 1)).neg).congr_deriv (by ring)
        · exact ((hs.mul_const (q 0)).add (hco.mul_const (q 1))).congr_deriv (by ring)
        · exact hasDerivAt_const _ _)
    simp [Fin.sum_univ_three, ofCols, vec] at h
    linarith

/-- The entries that the stress calculation adds. -/
theorem addStress_apply (c : Nonlocal np nb nG) (R : Mat ℝ) (x : V3 ℝ) (m : Mat ℝ) (h21 : stressIJ c R x 2 1 = stressIJ c R x 1 2)
    (h02 : stressIJ c R x 0 2 = stressIJ c R x 2 0) (h10 : stressIJ c R x 1 0 = stressIJ c R x 0 1) (i j : Fin 3) :
    addStress c R x m i j = m i j + stressIJ c R x i j := by
  fin_cases i <;> fin_cases j <;> simp [addStress, rrtIndex, addEntry, h21, h02, h10]

theorem nonlocalStress_apply (c : Nonlocal np nb nG) (R : Mat ℝ) (pos : Fin n → V3 ℝ) (h : ∀ x, stressIJ c R x 2 1 = stressIJ c R x 1 2 ∧ stressIJ c R x 0 2 = stressIJ c R x 2 0 ∧ stressIJ c R x 1 0 = stressIJ c R x 0 1)
    (i j : Fin 3) : nonlocalStress c R pos i j = ∑ a, stressIJ c R (pos a) i j := by
  have key : ∀ (l : List (Fin n)) (m : Mat ℝ), l.foldl (fun m a => addStress c R (pos a) m) m i j = m i j + (l.map fun a => stressIJ c R (pos a) i j).sum := by
    intro l
    induction l with
    | nil => intro m; simp
    | cons a l ih =>
      intro m
      rw [List.foldl_cons, ih, addStress_apply c R (pos a) m (h _).1 (h _).2.1 (h _).2.2, List.map_cons, List.sum_cons]; ring
  unfold nonlocalStress
  rw [key, zero_add, ← List.ofFn_eq_map, List.sum_ofFn]

end
end Jdftx.Psp
