import Verif.Lemmas.Lattice
import Mathlib.LinearAlgebra.Matrix.NonsingularInverse
import Mathlib.Tactic.LinearCombination

/-!
# C26, C27: lattice reduction and lattice symmetries
-/
namespace Jdftx.Lat
open Jdftx.M3

variable {K : Type} [CommRing K]

/-! ## C26 -/

omit [CommRing K] in
theorem mul_self_one_comm (s : RState K) (h : Matrix.of s.t * Matrix.of s.tInv = 1) :
    mulMM s.t s.tInv = diag 1 1 1 ∧ mulMM s.tInv s.t = diag 1 1 1 := by
  constructor
  · apply Matrix.of.injective; rw [mulMM_eq, diag_one, h]
  · apply Matrix.of.injective; rw [mulMM_eq, diag_one, mul_eq_one_comm.mp h]

/-- Reduction terminates (after fewer sweeps than `|R|/threshold + 1`); it returns vectors spanning the same lattice, an
integer matrix of determinant one with `Rreduced = R * transmission`, and its two-sided inverse; the result is not longer than
the input, and adding any combination `i, j` in `-1..1` of two of the vectors to the third does not shorten it by more than the
threshold. Stated for both instances (`double` and `int` scalars). -/
theorem C26_reduceMatrix (φ : K →+* ℝ) (thr : ℝ) (hthr : 0 < thr) (R : Mat K) (fuel : Nat) (hf : nrm2 φ R < fuel * thr) :
    ∃ s, reduceMatrix φ thr fuel R = .ok s ∧
      s.R = mulMM R (castMat s.t) ∧ det s.t = 1 ∧
      mulMM s.t s.tInv = diag 1 1 1 ∧ mulMM s.tInv s.t = diag 1 1 1 ∧
      (∀ v, InLattice s.R v ↔ InLattice R v) ∧ det s.R = det R ∧
      nrm2 φ s.R ≤ nrm2 φ R ∧
      (∀ (k : Fin 3) (i j : Int), -1 ≤ i ∧ i ≤ 1 → -1 ≤ j ∧ j ≤ 1 → nrm2 φ s.R - thr ≤ nrm2 φ (addCols s.R k i j)) := by
  obtain ⟨s, e, hi, hd, hn⟩ := reduceLoop_spec φ thr hthr R fuel _ (inv_init R) hf
  have hR : s.R = mulMM R (castMat s.t) := by
    apply Matrix.of.injective; rw [mulMM_eq, hi.prod]
  obtain ⟨h1, h2⟩ := mul_self_one_comm s hi.inv
  refine ⟨s, e, hR, by rw [det_eq]; exact hi.det, h1, h2, ?_, ?_, hn, hd.reduced⟩
  · intro v
    have cast : ∀ (m : Mat Int) (n : V3 Int), (fun i => ((mulMV m n i : Int) : K)) = mulMV (castMat m) fun i => (n i : K) := by
      intro m n; funext i; simp [mulMV, castMat]
    have assoc : ∀ (A B : Mat K) (w : V3 K), mulMV (mulMM A B) w = mulMV A (mulMV B w) := by
      intro A B w; rw [mulMV_eq, mulMV_eq, mulMV_eq, mulMM_eq, Matrix.mulVec_mulVec]
    constructor
    · rintro ⟨n, rfl⟩
      exact ⟨mulMV s.t n, by rw [cast, hR, assoc]⟩
    · rintro ⟨n, rfl⟩
      refine ⟨mulMV s.tInv n, ?_⟩
      rw [cast, hR, assoc, ← mulMV_castMM, h1, mulMV_one]
  · have hc : (Matrix.of (castMat s.t : Mat K)).det = 1 := by
      have := congrArg (Int.castRingHom K) hi.det
      rw [RingHom.map_det] at this
      rw [castMat_eq]; simpa using this
    rw [det_eq, det_eq, hi.prod, Matrix.det_mul, hc, mul_one]

/-- The norm used is the root of the sum of squared entries. -/
theorem C26_norm (φ : K →+* ℝ) (m : Mat K) : nrm2 φ m = Real.sqrt (∑ a, ∑ b, φ (m a b) ^ 2) := nrm2_eq φ m

/-- The skewed lattice (1,0,0), (1,1,0), (0,0,1). -/
def skew : Mat Int := fun a b => vec (vec 1 1 0 b) (vec 0 1 0 b) (vec 0 0 1 b) a

theorem skew_nrm2 : nrm2 (Int.castRingHom ℝ) skew = 2 := by
  unfold nrm2
  have : nrm2sq skew = 4 := by decide
  rw [this, show (Int.castRingHom ℝ) 4 = 2 ^ 2 by norm_num, Real.sqrt_sq (by norm_num)]

-- The hypotheses hold, and the loop really changes something, for the skewed lattice.
example : ∃ s, reduceMatrix (Int.castRingHom ℝ) (1/10) 100 skew = .ok s ∧ s.R ≠ skew := by
  obtain ⟨s, h, _, _, _, _, _, _, _, hr⟩ := C26_reduceMatrix (Int.castRingHom ℝ) (1/10) (by norm_num) skew 100
    (by rw [skew_nrm2]; norm_num)
  refine ⟨s, h, fun e => ?_⟩
  have h1 := hr 1 0 (-1) (by decide) (by decide)
  rw [e, skew_nrm2] at h1
  unfold nrm2 at h1
  have h3 : nrm2sq (addCols skew 1 0 (-1)) = 3 := by decide
  rw [h3] at h1
  have h4 : Real.sqrt ((Int.castRingHom ℝ) 3) < 1.8 := by
    rw [Real.sqrt_lt' (by norm_num)]; norm_num
  norm_num at h1 h4
  linarith

/-! ## C27 -/

theorem mem_candidates (m : Mat Int) : m ∈ candidates ↔ ∀ a b, -1 ≤ m a b ∧ m a b ≤ 1 := by
  have r : ∀ x : Int, x ∈ ([-1, 0, 1] : List Int) ↔ -1 ≤ x ∧ x ≤ 1 := by
    intro x; simp only [List.mem_cons, List.not_mem_nil, or_false]; omega
  unfold candidates
  simp only [List.mem_flatMap, List.mem_map, r]
  constructor
  · rintro ⟨a, ha, b, hb, c, hc, d, hd, e, he, f, hf, g, hg, h, hh, i, hi, rfl⟩
    intro x y
    fin_cases x <;> fin_cases y <;> simp only [vec] <;> assumption
  · intro h
    refine ⟨m 0 0, h 0 0, m 0 1, h 0 1, m 0 2, h 0 2, m 1 0, h 1 0, m 1 1, h 1 1, m 1 2, h 1 2,
      m 2 0, h 2 0, m 2 1, h 2 1, m 2 2, h 2 2, ?_⟩
    funext x y
    fin_cases x <;> fin_cases y <;> rfl

theorem keepsMetric_iff (thr : ℝ) (R : Mat ℝ) (m : Mat Int) :
    keepsMetric thr (mulMM (transpose R) R) m ↔ metricChange R m < thr * metricSize R := by
  unfold keepsMetric metricChange metricSize
  rw [nrm2_eq, nrm2_eq]
  have e1 : ∀ a b, subM (mulMM (transpose R) R)
        (mulMM (mulMM (transpose (castMat m)) (mulMM (transpose R) R)) (castMat m)) a b
      = dot (column R a) (column R b)
        - dot (column (mulMM R (castMat m)) a) (column (mulMM R (castMat m)) b) := by
    intro a b; simp only [subM, mulMM, transpose, dot, column, vec]; ring
  have e2 : ∀ a b, mulMM (transpose R) R a b = dot (column R a) (column R b) := by
    intro a b; simp only [mulMM, transpose, dot, column, vec]; ring
  simp only [RingHom.id_apply, e1, e2]

theorem isometry_iff (R : Mat ℝ) (m : Mat Int) :
    Isometry R m ↔ (Matrix.of (castMat m : Mat ℝ)).transpose * ((Matrix.of R).transpose * Matrix.of R) * Matrix.of (castMat m)
      = (Matrix.of R).transpose * Matrix.of R := by
  have hd : ∀ v w : V3 ℝ, dot v w = v ⬝ᵥ w := by
    intro v w; simp [dot, dotProduct, Fin.sum_univ_three]
  have key : ∀ (A : Matrix (Fin 3) (Fin 3) ℝ) (v w : V3 ℝ), (A.mulVec v) ⬝ᵥ (A.mulVec w) = v ⬝ᵥ ((A.transpose * A).mulVec w) := by
    intro A v w
    rw [← Matrix.mulVec_mulVec, Matrix.dotProduct_mulVec v, Matrix.vecMul_transpose]
  unfold Isometry
  have e : ∀ v w : V3 ℝ, dot (mulMV R (mulMV (castMat m) v)) (mulMV R (mulMV (castMat m) w))
      = v ⬝ᵥ (((Matrix.of R * Matrix.of (castMat m)).transpose * (Matrix.of R * Matrix.of (castMat m))).mulVec w) := by
    intro v w; rw [hd, mulMV_eq, mulMV_eq, mulMV_eq, mulMV_eq, Matrix.mulVec_mulVec, Matrix.mulVec_mulVec, key]
  have e' : ∀ v w : V3 ℝ, dot (mulMV R v) (mulMV R w) = v ⬝ᵥ (((Matrix.of R).transpose * Matrix.of R).mulVec w) := by
    intro v w; rw [hd, mulMV_eq, mulMV_eq, key]
  simp only [e, e']
  rw [Matrix.transpose_mul]
  have assoc : (Matrix.of (castMat m : Mat ℝ)).transpose * (Matrix.of R).transpose * (Matrix.of R * Matrix.of (castMat m))
      = (Matrix.of (castMat m : Mat ℝ)).transpose * ((Matrix.of R).transpose * Matrix.of R) * Matrix.of (castMat m) := by
    simp only [mul_assoc]
  rw [assoc]
  constructor
  · intro h
    ext a b
    have := h (Pi.single a 1) (Pi.single b 1)
    simpa using this
  · intro h v w; rw [h]

theorem metricSize_pos (R : Mat ℝ) (hR : det R ≠ 0) : 0 < metricSize R := by
  unfold metricSize
  apply Real.sqrt_pos.2
  by_contra hneg
  have hz : ∑ a, ∑ b, dot (column R a) (column R b) ^ 2 = 0 :=
    le_antisymm (not_lt.1 hneg) (Finset.sum_nonneg fun a _ => Finset.sum_nonneg fun b _ => sq_nonneg _)
  have hd0 : ∀ a, dot (column R a) (column R a) = 0 := by
    intro a
    have ha := (Finset.sum_eq_zero_iff_of_nonneg (fun a _ => Finset.sum_nonneg fun b _ => sq_nonneg _)).1 hz a
      (Finset.mem_univ a)
    have hb := (Finset.sum_eq_zero_iff_of_nonneg (fun b _ => sq_nonneg _)).1 ha a (Finset.mem_univ a)
    exact pow_eq_zero_iff (two_ne_zero) |>.1 hb
  have hcol : ∀ a i, R i a = 0 := by
    intro a
    have := hd0 a
    simp only [dot, column, vec] at this
    have h0 : R 0 a = 0 := by
      apply pow_eq_zero_iff (two_ne_zero) |>.1
      nlinarith [sq_nonneg (R 0 a), sq_nonneg (R 1 a), sq_nonneg (R 2 a)]
    have h1 : R 1 a = 0 := by
      apply pow_eq_zero_iff (two_ne_zero) |>.1
      nlinarith [sq_nonneg (R 0 a), sq_nonneg (R 1 a), sq_nonneg (R 2 a)]
    have h2 : R 2 a = 0 := by
      apply pow_eq_zero_iff (two_ne_zero) |>.1
      nlinarith [sq_nonneg (R 0 a), sq_nonneg (R 1 a), sq_nonneg (R 2 a)]
    intro i
    fin_cases i <;> assumption
  apply hR
  simp [det, box, dot, cross, row, vec, hcol]

theorem respects_iff (tr : Fin 3 → Bool) (m : Mat Int) : RespectsTruncation tr m ↔ ¬symBroken tr m := by
  unfold RespectsTruncation symBroken
  push Not
  rfl

/-- The list as a predicate: exactly the matrices whose conjugate by the reduction has entries in `-1..1`, keeps the metric of
the reduced vectors within the threshold, and that respect the truncated directions. -/
theorem C27_characterisation (thr : ℝ) (hthr : 0 < thr) (R : Mat ℝ) (tr : Fin 3 → Bool) (fuel : Nat)
    (hf : nrm2 (RingHom.id ℝ) R < fuel * thr) :
    ∃ s syms, reduceLatticeVectors thr fuel R = .ok s ∧ getSymmetries thr fuel R tr = .ok syms ∧
      ∀ M, M ∈ syms ↔ ((∀ a b, -1 ≤ mulMM (mulMM s.tInv M) s.t a b ∧ mulMM (mulMM s.tInv M) s.t a b ≤ 1) ∧
        metricChange s.R (mulMM (mulMM s.tInv M) s.t) < thr * metricSize s.R ∧ RespectsTruncation tr M) := by
  obtain ⟨s, e, h1, h2, h3, h4, h5, h6, h7, h8⟩ := C26_reduceMatrix (RingHom.id ℝ) thr hthr R fuel hf
  have a3 := congrArg Matrix.of h3
  have a4 := congrArg Matrix.of h4
  rw [mulMM_eq, diag_one] at a3 a4
  have conj : ∀ m : Mat Int, mulMM (mulMM s.tInv (mulMM (mulMM s.t m) s.tInv)) s.t = m := by
    intro m
    apply Matrix.of.injective
    simp only [mulMM_eq]
    calc _ = (Matrix.of s.tInv * Matrix.of s.t) * Matrix.of m * (Matrix.of s.tInv * Matrix.of s.t) := by
          simp only [mul_assoc]
      _ = _ := by rw [a4]; simp
  have conj' : ∀ m : Mat Int, mulMM (mulMM s.t (mulMM (mulMM s.tInv m) s.t)) s.tInv = m := by
    intro m
    apply Matrix.of.injective
    simp only [mulMM_eq]
    calc _ = (Matrix.of s.t * Matrix.of s.tInv) * Matrix.of m * (Matrix.of s.t * Matrix.of s.tInv) := by
          simp only [mul_assoc]
      _ = _ := by rw [a3]; simp
  refine ⟨s, _, e, by unfold getSymmetries; rw [show reduceLatticeVectors thr fuel R = .ok s from e], ?_⟩
  intro M
  simp only [List.mem_filterMap]
  constructor
  · rintro ⟨m, hm, hM⟩
    split at hM
    · next hk =>
      split at hM
      · simp at hM
      · next hb =>
        simp only [Option.some.injEq] at hM
        subst hM
        rw [conj]
        exact ⟨(mem_candidates m).1 hm, (keepsMetric_iff thr s.R m).1 hk, (respects_iff tr _).2 hb⟩
    · simp at hM
  · rintro ⟨hb, hk, ht⟩
    refine ⟨mulMM (mulMM s.tInv M) s.t, (mem_candidates _).2 hb, ?_⟩
    rw [if_pos ((keepsMetric_iff thr s.R _).2 hk), conj', if_neg ((respects_iff tr M).1 ht)]

theorem isometry_metricChange (s : RState ℝ) (R : Mat ℝ) (hR : s.R = mulMM R (castMat s.t))
    (hi : mulMM s.t s.tInv = diag 1 1 1) (M : Mat Int) (h : Isometry R M) :
    metricChange s.R (mulMM (mulMM s.tInv M) s.t) = 0 := by
  have hc : ∀ a b, dot (column (mulMM s.R (castMat (mulMM (mulMM s.tInv M) s.t))) a)
      (column (mulMM s.R (castMat (mulMM (mulMM s.tInv M) s.t))) b) = dot (column s.R a) (column s.R b) := by
    have e1 : mulMM s.R (castMat (mulMM (mulMM s.tInv M) s.t)) = mulMM R (mulMM (castMat M) (castMat s.t)) := by
      have a3 := congrArg Matrix.of hi
      rw [mulMM_eq, diag_one] at a3
      have a3' : (Matrix.of (castMat s.t : Mat ℝ)) * Matrix.of (castMat s.tInv) = 1 := by
        rw [castMat_eq, castMat_eq, ← Matrix.map_mul, a3]; simp
      apply Matrix.of.injective
      rw [hR]
      have : Matrix.of (castMat (mulMM (mulMM s.tInv M) s.t) : Mat ℝ)
          = Matrix.of (castMat s.tInv) * Matrix.of (castMat M) * Matrix.of (castMat s.t) := by
        rw [castMat_eq, mulMM_eq, mulMM_eq, Matrix.map_mul, Matrix.map_mul, castMat_eq, castMat_eq, castMat_eq]
      rw [mulMM_eq, mulMM_eq, mulMM_eq, mulMM_eq, this]
      calc _ = Matrix.of R * ((Matrix.of (castMat s.t : Mat ℝ)) * Matrix.of (castMat s.tInv)) * Matrix.of (castMat M) * Matrix.of (castMat s.t) := by
            simp only [mul_assoc]
        _ = _ := by rw [a3']; simp [mul_assoc]
    have col : ∀ (A B : Mat ℝ) a, column (mulMM A B) a = mulMV A (column B a) := by
      intro A B a; funext i; fin_cases i <;> simp [column, mulMM, mulMV, vec]
    intro a b
    rw [e1, hR, col, col, col, col, col, col]
    exact h _ _
  unfold metricChange
  simp [hc]

/-- Every reported symmetry keeps the inner products of the reduced lattice vectors to within the relative threshold and
respects the truncated directions; every exact symmetry of the lattice which respects the truncated directions and has entries
in `-1..1` on the reduced vectors is reported; the identity is always reported. Not proved (hence partial): that all exact
symmetries have such entries, and that approximate symmetries are exact. -/
theorem C27_symmetries_partial (thr : ℝ) (hthr : 0 < thr) (R : Mat ℝ) (hR : det R ≠ 0) (tr : Fin 3 → Bool) (fuel : Nat)
    (hf : nrm2 (RingHom.id ℝ) R < fuel * thr) :
    ∃ s syms, reduceLatticeVectors thr fuel R = .ok s ∧ getSymmetries thr fuel R tr = .ok syms ∧
      (∀ M ∈ syms, metricChange s.R (mulMM (mulMM s.tInv M) s.t) < thr * metricSize s.R ∧ RespectsTruncation tr M) ∧
      (∀ M, Isometry R M → RespectsTruncation tr M →
        (∀ a b, -1 ≤ mulMM (mulMM s.tInv M) s.t a b ∧ mulMM (mulMM s.tInv M) s.t a b ≤ 1) → M ∈ syms) ∧
      diag 1 1 1 ∈ syms := by
  obtain ⟨s, syms, e, e2, h⟩ := C27_characterisation thr hthr R tr fuel hf
  obtain ⟨s', e', h1, h2, h3, h4, h5, h6, h7, h8⟩ := C26_reduceMatrix (RingHom.id ℝ) thr hthr R fuel hf
  have : s' = s := by
    have : (Except.ok s' : Res (RState ℝ)) = .ok s := e'.symm.trans e
    injection this
  subst this
  have hpos := metricSize_pos s'.R (by rw [h6]; exact hR)
  have comp : ∀ M, Isometry R M → RespectsTruncation tr M →
      (∀ a b, -1 ≤ mulMM (mulMM s'.tInv M) s'.t a b ∧ mulMM (mulMM s'.tInv M) s'.t a b ≤ 1) → M ∈ syms := by
    intro M hi ht hb
    refine (h M).2 ⟨hb, ?_, ht⟩
    rw [isometry_metricChange s' R h1 h3 M hi]
    positivity
  refine ⟨s', syms, e, e2, fun M hM => ((h M).1 hM).2, comp, comp _ ?_ ?_ ?_⟩
  · intro v w
    have : ∀ v : V3 ℝ, mulMV (castMat (diag 1 1 1)) v = v := by
      intro v; rw [mulMV_eq, castMat_eq, diag_one]; simp
    rw [this, this]
  · intro i j hij
    by_cases h : i = j
    · rw [h]
    · simp [diag, h] at hij
  · have : mulMM (mulMM s'.tInv (diag 1 1 1)) s'.t = diag 1 1 1 := by
      apply Matrix.of.injective
      have a := congrArg Matrix.of h4
      rw [mulMM_eq, diag_one] at a
      rw [mulMM_eq, mulMM_eq, diag_one, mul_one, a]
    rw [this]; decide

theorem isometry_mul (R : Mat ℝ) (m n : Mat Int) (hm : Isometry R m) (hn : Isometry R n) : Isometry R (mulMM m n) := by
  intro v w
  rw [mulMV_castMM, mulMV_castMM, hm, hn]

theorem respects_mul (tr : Fin 3 → Bool) (m n : Mat Int) (hm : RespectsTruncation tr m) (hn : RespectsTruncation tr n) :
    RespectsTruncation tr (mulMM m n) := by
  intro i j h
  by_contra hne
  apply h
  have : ∀ k, m i k * n k j = 0 := by
    intro k
    by_contra hk
    exact hne ((hm i k (left_ne_zero_of_mul hk)).trans (hn k j (right_ne_zero_of_mul hk)))
  simp [mulMM, this]

/-- An isometry of a nonsingular lattice has an integer inverse, which is an isometry respecting the same truncation. -/
theorem isometry_inv (R : Mat ℝ) (hR : det R ≠ 0) (tr : Fin 3 → Bool) (m : Mat Int) (hm : Isometry R m)
    (ht : RespectsTruncation tr m) :
    ∃ n, mulMM m n = diag 1 1 1 ∧ mulMM n m = diag 1 1 1 ∧ Isometry R n ∧ RespectsTruncation tr n := by
  have hd : (Matrix.of m).det * (Matrix.of m).det = 1 := by
    have h := congrArg Matrix.det ((isometry_iff R m).1 hm)
    rw [Matrix.det_mul, Matrix.det_mul, Matrix.det_mul, Matrix.det_transpose, Matrix.det_transpose] at h
    rw [det_eq] at hR
    have hc : (Matrix.of (castMat m : Mat ℝ)).det = ((Matrix.of m).det : ℝ) := by
      rw [castMat_eq]; exact (RingHom.map_det (Int.castRingHom ℝ) _).symm
    rw [hc] at h
    have : ((Matrix.of m).det : ℝ) * (Matrix.of m).det = 1 := by
      have h2 : ((Matrix.of R).det * (Matrix.of R).det) * (((Matrix.of m).det : ℝ) * (Matrix.of m).det)
          = ((Matrix.of R).det * (Matrix.of R).det) * 1 := by linear_combination h
      exact mul_left_cancel₀ (mul_ne_zero hR hR) h2
    exact_mod_cast this
  have hu : IsUnit (Matrix.of m).det := IsUnit.of_mul_eq_one _ hd
  refine ⟨Matrix.of.symm (Matrix.of m)⁻¹, ?_, ?_, ?_, ?_⟩
  · apply Matrix.of.injective
    rw [mulMM_eq, diag_one, Equiv.apply_symm_apply, Matrix.mul_nonsing_inv _ hu]
  · apply Matrix.of.injective
    rw [mulMM_eq, diag_one, Equiv.apply_symm_apply, Matrix.nonsing_inv_mul _ hu]
  · intro v w
    rw [← hm]
    have : ∀ v : V3 ℝ, mulMV (castMat m) (mulMV (castMat (Matrix.of.symm (Matrix.of m)⁻¹)) v) = v := by
      intro v
      rw [← mulMV_castMM]
      have : mulMM m (Matrix.of.symm (Matrix.of m)⁻¹) = diag 1 1 1 := by
        apply Matrix.of.injective
        rw [mulMM_eq, diag_one, Equiv.apply_symm_apply, Matrix.mul_nonsing_inv _ hu]
      rw [this, mulMV_one]
    rw [this, this]
  · have comm : ∀ k : Mat Int, RespectsTruncation tr k ↔
        Matrix.of k * Matrix.diagonal (fun i => if tr i then (1 : Int) else 0)
          = Matrix.diagonal (fun i => if tr i then (1 : Int) else 0) * Matrix.of k := by
      intro k
      constructor
      · intro h
        ext i j
        rw [Matrix.mul_diagonal, Matrix.diagonal_mul]
        by_cases hz : k i j = 0
        · simp [hz]
        · rw [h i j hz, mul_comm]
      · intro h i j hij
        have := congrFun (congrFun h i) j
        rw [Matrix.mul_diagonal, Matrix.diagonal_mul] at this
        simp only [Matrix.of_apply] at this
        cases hi : tr i <;> cases hj : tr j <;> simp_all
    refine (comm _).2 ?_
    have h := (comm m).1 ht
    rw [Equiv.apply_symm_apply]
    generalize Matrix.diagonal (fun i => if tr i then (1 : Int) else 0) = D at h ⊢
    calc (Matrix.of m)⁻¹ * D = (Matrix.of m)⁻¹ * (D * Matrix.of m) * (Matrix.of m)⁻¹ := by
          rw [mul_assoc, mul_assoc, Matrix.mul_nonsing_inv _ hu, mul_one]
      _ = ((Matrix.of m)⁻¹ * Matrix.of m) * D * (Matrix.of m)⁻¹ := by rw [← h]; simp only [mul_assoc]
      _ = D * (Matrix.of m)⁻¹ := by rw [Matrix.nonsing_inv_mul _ hu, one_mul]

/-- When the search box covers all exact symmetries and the threshold admits only exact ones, the reported list is exactly the
group of lattice symmetries which respect the truncated directions: it contains the identity, all products and an inverse of
every member. -/
theorem C27_group (thr : ℝ) (hthr : 0 < thr) (R : Mat ℝ) (hR : det R ≠ 0) (tr : Fin 3 → Bool) (fuel : Nat)
    (hf : nrm2 (RingHom.id ℝ) R < fuel * thr) :
    ∃ s syms, reduceLatticeVectors thr fuel R = .ok s ∧ getSymmetries thr fuel R tr = .ok syms ∧
      ((∀ M, Isometry R M → RespectsTruncation tr M →
        ∀ a b, -1 ≤ mulMM (mulMM s.tInv M) s.t a b ∧ mulMM (mulMM s.tInv M) s.t a b ≤ 1) →
       (∀ M ∈ syms, Isometry R M) →
       (∀ M, M ∈ syms ↔ Isometry R M ∧ RespectsTruncation tr M) ∧
       diag 1 1 1 ∈ syms ∧ (∀ M ∈ syms, ∀ N ∈ syms, mulMM M N ∈ syms) ∧
       (∀ M ∈ syms, ∃ N ∈ syms, mulMM M N = diag 1 1 1 ∧ mulMM N M = diag 1 1 1)) := by
  obtain ⟨s, syms, e, e2, h1, h2, h3⟩ := C27_symmetries_partial thr hthr R hR tr fuel hf
  refine ⟨s, syms, e, e2, fun hbox hexact => ?_⟩
  have iff : ∀ M, M ∈ syms ↔ Isometry R M ∧ RespectsTruncation tr M :=
    fun M => ⟨fun h => ⟨hexact M h, (h1 M h).2⟩, fun h => h2 M h.1 h.2 (hbox M h.1 h.2)⟩
  refine ⟨iff, h3, fun M hM N hN => ?_, fun M hM => ?_⟩
  · have a := (iff M).1 hM
    have b := (iff N).1 hN
    exact (iff _).2 ⟨isometry_mul R M N a.1 b.1, respects_mul tr M N a.2 b.2⟩
  · have a := (iff M).1 hM
    obtain ⟨n, g1, g2, g3, g4⟩ := isometry_inv R hR tr M a.1 a.2
    exact ⟨n, (iff n).2 ⟨g3, g4⟩, g1, g2⟩

/-! The hypotheses of `C27_group` are met by the simple cubic lattice, with any truncated directions. -/

theorem sweep_id (φ : K →+* ℝ) (thr : ℝ) (s : RState K)
    (h : ∀ p ∈ trials, ¬(nrm2 φ (mulMM s.R (castMat (elem p.1 p.2.1 p.2.2))) < nrm2 φ s.R - thr)) :
    sweep φ thr trials s = (s, false) := by
  have : ∀ l, (∀ p ∈ l, ¬(nrm2 φ (mulMM s.R (castMat (elem p.1 p.2.1 p.2.2))) < nrm2 φ s.R - thr)) →
      sweep φ thr l s = (s, false) := by
    intro l
    induction l with
    | nil => intro _; rfl
    | cons p ps ih =>
      intro h
      have ht : trial φ thr s p.1 p.2.1 p.2.2 = (s, false) := by
        unfold trial; rw [if_neg (h p (List.mem_cons_self ..))]
      unfold sweep
      rw [ht]
      simp only
      rw [ih (fun q hq => h q (List.mem_cons_of_mem _ hq))]
      rfl
  exact this trials h

theorem cubic_reduce (fuel : Nat) :
    reduceLatticeVectors (1/10) (fuel + 1) (diag 1 1 1) = .ok ⟨diag 1 1 1, diag 1 1 1, diag 1 1 1⟩ := by
  unfold reduceLatticeVectors reduceMatrix reduceLoop
  rw [sweep_id]
  · rfl
  · intro p hp
    have h1 : mulMM (diag 1 1 1 : Mat ℝ) (castMat (elem p.1 p.2.1 p.2.2)) = castMat (elem p.1 p.2.1 p.2.2) := by
      apply Matrix.of.injective; rw [mulMM_eq, diag_one, one_mul]
    have hc : ∀ m : Mat Int, nrm2 (RingHom.id ℝ) (castMat m) = Real.sqrt (nrm2sq m : Int) := by
      intro m; unfold nrm2; congr 1; simp [nrm2sq, trace, mulMM, transpose, castMat]
    have hd : (diag 1 1 1 : Mat ℝ) = castMat (diag 1 1 1) := by
      funext a b; fin_cases a <;> fin_cases b <;> simp [castMat, diag, vec]
    simp only
    rw [h1, hd, hc, hc]
    have hle : (nrm2sq (diag 1 1 1 : Mat Int)) ≤ nrm2sq (elem p.1 p.2.1 p.2.2) := by
      clear h1; revert p; decide
    have := Real.sqrt_le_sqrt (show ((nrm2sq (diag 1 1 1 : Mat Int) : Int) : ℝ) ≤ ((nrm2sq (elem p.1 p.2.1 p.2.2) : Int) : ℝ) by
      exact_mod_cast hle)
    linarith

example (tr : Fin 3 → Bool) : ∃ syms, getSymmetries (1/10) 100 (diag 1 1 1) tr = .ok syms ∧
    (∀ M, M ∈ syms ↔ Isometry (diag 1 1 1) M ∧ RespectsTruncation tr M) := by
  have hdiag : ∀ m : Mat Int, mulMM (mulMM (diag 1 1 1) m) (diag 1 1 1) = m := by
    intro m; apply Matrix.of.injective; rw [mulMM_eq, mulMM_eq, diag_one]; simp
  have n1 : nrm2 (RingHom.id ℝ) (diag 1 1 1) ≤ 2 := by
    unfold nrm2
    have : nrm2sq (diag 1 1 1 : Mat ℝ) = 3 := by
      simp [nrm2sq, trace, mulMM, transpose, diag, vec]; norm_num
    rw [this]
    refine (Real.sqrt_le_left (by norm_num)).2 ?_
    norm_num
  have isoG : ∀ M : Mat Int, Isometry (diag 1 1 1) M ↔ (Matrix.of M).transpose * Matrix.of M = 1 := by
    intro M
    rw [isometry_iff, diag_one, Matrix.transpose_one, one_mul, mul_one, castMat_eq, ← Matrix.transpose_map, ← Matrix.map_mul]
    constructor
    · intro h
      ext a b
      have := congrFun (congrFun h a) b
      simp only [Matrix.map_apply] at this
      by_cases hab : a = b
      · subst hab; simp at this ⊢; exact_mod_cast this
      · simp [hab] at this ⊢; exact_mod_cast this
    · intro h; rw [h]; simp
  obtain ⟨s, syms, e1, e2, h⟩ := C27_group (1/10) (by norm_num) (diag 1 1 1) (by simp [det, box, dot, cross, row, vec, diag])
    tr 100 (lt_of_le_of_lt n1 (by norm_num))
  have hs := cubic_reduce 99
  rw [e1] at hs
  injection hs with hs
  subst hs
  simp only [hdiag] at h
  refine ⟨syms, e2, (h ?_ ?_).1⟩
  · intro M hM _ a b
    have := congrFun (congrFun ((isoG M).1 hM) b) b
    simp only [Matrix.mul_apply, Fin.sum_univ_three, Matrix.transpose_apply, Matrix.of_apply, Matrix.one_apply_eq] at this
    have hall : ∀ a, M a b * M a b ≤ 1 := by
      intro a
      have q0 := mul_self_nonneg (M 0 b)
      have q1 := mul_self_nonneg (M 1 b)
      have q2 := mul_self_nonneg (M 2 b)
      fin_cases a
      · show M 0 b * M 0 b ≤ 1
        omega
      · show M 1 b * M 1 b ≤ 1
        omega
      · show M 2 b * M 2 b ≤ 1
        omega
    constructor <;> nlinarith [hall a]
  · intro M hM
    obtain ⟨s, syms', e3, e4, hc⟩ := C27_characterisation (1/10) (by norm_num) (diag 1 1 1) tr 100
      (lt_of_le_of_lt n1 (by norm_num))
    rw [e1] at e3
    rw [e2] at e4
    injection e3 with e3
    injection e4 with e4
    subst e3 e4
    have hm := ((hc M).1 hM).2.1
    simp only [hdiag] at hm
    have hsz : metricSize (diag 1 1 1 : Mat ℝ) ≤ 2 := by
      unfold metricSize
      refine (Real.sqrt_le_left (by norm_num)).2 ?_
      simp only [Fin.sum_univ_three]
      simp [dot, column, diag, vec]; norm_num
    have hch : metricChange (diag 1 1 1) M
        = Real.sqrt ((∑ a, ∑ b, ((1 : Matrix (Fin 3) (Fin 3) Int) a b - ((Matrix.of M).transpose * Matrix.of M) a b) ^ 2 : Int) : ℝ) := by
      have e : mulMM (diag 1 1 1 : Mat ℝ) (castMat M) = castMat M := by
        apply Matrix.of.injective; rw [mulMM_eq, diag_one, one_mul]
      unfold metricChange
      rw [e]
      congr 1
      push_cast
      refine Finset.sum_congr rfl fun a _ => Finset.sum_congr rfl fun b _ => ?_
      have d1 : dot (column (diag 1 1 1 : Mat ℝ) a) (column (diag 1 1 1) b) = (((1 : Matrix (Fin 3) (Fin 3) Int) a b : Int) : ℝ) := by
        fin_cases a <;> fin_cases b <;> simp [dot, column, diag, vec]
      have d2 : dot (column (castMat M : Mat ℝ) a) (column (castMat M) b)
          = ((((Matrix.of M).transpose * Matrix.of M) a b : Int) : ℝ) := by
        simp [dot, column, castMat, vec, Matrix.mul_apply, Fin.sum_univ_three]
      rw [d1, d2]
    rw [hch, Real.sqrt_lt' (by linarith [Real.sqrt_nonneg (0 : ℝ), metricSize_pos (diag 1 1 1 : Mat ℝ) (by simp [det, box, dot, cross, row, vec, diag])])] at hm
    have hlt : ((∑ a, ∑ b, ((1 : Matrix (Fin 3) (Fin 3) Int) a b - ((Matrix.of M).transpose * Matrix.of M) a b) ^ 2 : Int) : ℝ) < 1 := by
      have h0 := metricSize_pos (diag 1 1 1 : Mat ℝ) (by simp [det, box, dot, cross, row, vec, diag])
      refine lt_of_lt_of_le hm ?_
      nlinarith
    have hlt' : (∑ a, ∑ b, ((1 : Matrix (Fin 3) (Fin 3) Int) a b - ((Matrix.of M).transpose * Matrix.of M) a b) ^ 2 : Int) < 1 := by
      exact_mod_cast hlt
    have hz : (∑ a, ∑ b, ((1 : Matrix (Fin 3) (Fin 3) Int) a b - ((Matrix.of M).transpose * Matrix.of M) a b) ^ 2 : Int) = 0 :=
      le_antisymm (Int.lt_add_one_iff.1 (by simpa using hlt'))
        (Finset.sum_nonneg fun a _ => Finset.sum_nonneg fun b _ => sq_nonneg _)
    refine (isoG M).2 ?_
    ext a b
    have ha := (Finset.sum_eq_zero_iff_of_nonneg (fun a _ => Finset.sum_nonneg fun b _ => sq_nonneg _)).1 hz a (Finset.mem_univ a)
    have hb := (Finset.sum_eq_zero_iff_of_nonneg (fun b _ => sq_nonneg _)).1 ha b (Finset.mem_univ b)
    have := pow_eq_zero_iff (two_ne_zero) |>.1 hb
    omega

end Jdftx.Lat
