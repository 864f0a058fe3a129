import Verif.Lemmas.MatFunc
import Mathlib.Analysis.Normed.Algebra.MatrixExponential

/-!
# C86: functions of matrices

Powers, exponentials and their derivatives are the ones of linear algebra, whatever eigenvectors LAPACK returns.
-/
set_option linter.unusedSectionVars false
namespace Jdftx.MatFunc
open Matrix Jdftx.MatFn ComplexConjugate
open scoped ComplexOrder
noncomputable section
variable {n m : ℕ}

/-- The result does not depend on the choice of eigenvectors (phases, bases of degenerate subspaces, order). -/
theorem C86_choice {d d' : Diag n} (hd : DiagOK d) (hd' : DiagOK d') {A : Mat n} (hA : A.IsHermitian) (p : ℝ) (h : Bool) :
    (pow d A p h).map Pow.value = (pow d' A p h).map Pow.value ∧ (pow d A p h).map Pow.singular = (pow d' A p h).map Pow.singular ∧ cis d A = cis d' A := by
  have hu := fn_unique (hd A hA) (hd' A hA)
  refine ⟨?_, ?_, hu (fun x => Complex.exp (Complex.I * x))⟩ <;>
  · by_cases hok : 0 ≤ p ∨ h = true ∨ A.PosDef
    · obtain ⟨S, h1, h2⟩ := pow_some hd hA hok
      obtain ⟨S', h1', h2'⟩ := pow_some hd' hA hok
      rw [h1, h1']
      simp only [Option.map_some, Option.some.injEq]
      first
        | exact hu _
        | exact propext (h2.trans h2'.symm)
    · push Not at hok
      have : h = false := by simpa using hok.2.1
      rw [this, pow_none hd hA hok.1 hok.2.2, pow_none hd' hA hok.1 hok.2.2]

/-- The program exits exactly for a negative power of a matrix that is not positive definite, when the caller does not ask for the flag. -/
theorem C86_exit {d : Diag n} (hd : DiagOK d) {A : Mat n} (hA : A.IsHermitian) (p : ℝ) (h : Bool) : pow d A p h = none ↔ p < 0 ∧ h = false ∧ ¬ A.PosDef := by
  constructor
  · intro hn
    by_contra hc
    have hok : 0 ≤ p ∨ h = true ∨ A.PosDef := by
      by_contra hk
      push Not at hk
      exact hc ⟨hk.1, by simpa using hk.2.1, hk.2.2⟩
    obtain ⟨S, h1, _⟩ := pow_some hd hA hok
    rw [h1] at hn
    simp at hn
  · rintro ⟨h1, rfl, h2⟩
    exact pow_none hd hA h1 h2

/-- For a positive definite matrix all real powers exist and obey the laws of powers; in particular the power `-1` is the inverse. -/
theorem C86_powers {d : Diag n} (hd : DiagOK d) {A : Mat n} (hA : A.PosDef) :
    ∃ R : ℝ → Mat n, (∀ p h, ∃ r, pow d A p h = some r ∧ r.value = R p ∧ ¬ r.singular) ∧ (∀ p, (R p).PosDef) ∧ (∀ s t, R s * R t = R (s + t)) ∧ R 0 = 1 ∧ R 1 = A ∧
      ∀ s t h, ∃ r, pow d (R s) t h = some r ∧ r.value = R (s * t) := by
  have hE := hd A hA.1
  have hk := (eig_pos hE).1 hA
  have hRE : ∀ p, Eig (fn (d A).1 (d A).2 (fun x => (powFn p x : ℂ))) (d A).1 (fun i => powFn p ((d A).2 i)) := fun p => fn_eig hE (powFn p)
  have hRP : ∀ p, (fn (d A).1 (d A).2 (fun x => (powFn p x : ℂ))).PosDef := fun p => (eig_pos (hRE p)).2 fun j => by
    rw [powFn_pos (hk j)]; exact Real.rpow_pos_of_pos (hk j) p
  refine ⟨fun p => fn (d A).1 (d A).2 (fun x => (powFn p x : ℂ)), ?_, hRP, ?_, ?_, ?_, ?_⟩
  · intro p h
    obtain ⟨S, h1, h2⟩ := pow_some (p := p) (h := h) hd hA.1 (Or.inr (Or.inr hA))
    exact ⟨_, h1, rfl, fun hs => (h2.1 hs).2 hA⟩
  · intro s t
    rw [fn_mul hE.left]
    refine fn_congr _ fun j => ?_
    rw [powFn_pos (hk j), powFn_pos (hk j), powFn_pos (hk j), Real.rpow_add (hk j)]
    push_cast; rfl
  · refine Eq.trans (fn_congr _ fun j => ?_) (fn_one hE.right (d A).2)
    rw [powFn_pos (hk j), Real.rpow_zero]; rfl
  · refine Eq.trans (fn_congr _ fun j => ?_) (fn_id hE)
    rw [powFn_pos (hk j), Real.rpow_one]
  · intro s t h
    obtain ⟨S, h1, _⟩ := pow_some (p := t) (h := h) hd (hRP s).1 (Or.inr (Or.inr (hRP s)))
    refine ⟨_, h1, ?_⟩
    refine (fn_unique (hd _ (hRP s).1) (hRE s) (fun x => (powFn t x : ℂ))).trans ?_
    unfold fn
    congr 3
    funext j
    have hs : 0 < powFn s ((d A).2 j) := by rw [powFn_pos (hk j)]; exact Real.rpow_pos_of_pos (hk j) s
    show ((powFn t (powFn s ((d A).2 j)) : ℝ) : ℂ) = ((powFn (s * t) ((d A).2 j) : ℝ) : ℂ)
    rw [powFn_pos hs, powFn_pos (hk j), powFn_pos (hk j), Real.rpow_mul (hk j).le]

/-- Positive powers of positive semidefinite matrices. -/
theorem C86_semidefinite {d : Diag n} (hd : DiagOK d) {A : Mat n} (hA : A.PosSemidef) :
    ∃ R : ℝ → Mat n, (∀ p h, 0 < p → ∃ r, pow d A p h = some r ∧ r.value = R p) ∧ (∀ p, (R p).PosSemidef) ∧ (∀ s t, 0 < s → 0 < t → R s * R t = R (s + t)) ∧ R 1 = A := by
  have hE := hd A hA.1
  have hk := (eig_nonneg hE).1 hA
  have hp : ∀ p, 0 < p → ∀ j, powFn p ((d A).2 j) = (d A).2 j ^ p := by
    intro p hp j
    unfold powFn
    rw [if_neg (by rintro ⟨h1, _⟩; linarith), if_neg (by rintro ⟨_, h1⟩; linarith [hk j])]
  refine ⟨fun p => fn (d A).1 (d A).2 (fun x => (powFn p x : ℂ)), ?_, ?_, ?_, ?_⟩
  · intro p h h0
    obtain ⟨S, h1, h2⟩ := pow_some (p := p) (h := h) hd hA.1 (Or.inl h0.le)
    exact ⟨_, h1, rfl⟩
  · intro p
    exact (eig_nonneg (fn_eig hE (powFn p))).2 fun j => powFn_nonneg _ _
  · intro s t hs ht
    rw [fn_mul hE.left]
    refine fn_congr _ fun j => ?_
    rw [hp s hs, hp t ht, hp _ (add_pos hs ht), Real.rpow_add_of_nonneg (hk j) hs.le ht.le]
    push_cast; rfl
  · refine Eq.trans (fn_congr _ fun j => ?_) (fn_id hE)
    rw [hp 1 one_pos, Real.rpow_one]

/-- For a Hermitian matrix with negative eigenvalues a positive power is that of the positive part. -/
theorem C86_positive_part {d : Diag n} (hd : DiagOK d) {A : Mat n} (hA : A.IsHermitian) :
    ∃ P N : Mat n, P.PosSemidef ∧ N.PosSemidef ∧ A = P - N ∧ P * N = 0 ∧ ∀ p h, 0 < p → ∃ r r', pow d A p h = some r ∧ pow d P p h = some r' ∧ r.value = r'.value := by
  have hE := hd A hA
  have hPE := fn_eig hE (fun x => max x 0)
  have hP : (fn (d A).1 (d A).2 (fun x => ((max x 0 : ℝ) : ℂ))).PosSemidef := (eig_nonneg hPE).2 fun j => le_max_right _ _
  refine ⟨_, fn (d A).1 (d A).2 (fun x => ((max (-x) 0 : ℝ) : ℂ)), hP, (eig_nonneg (fn_eig hE (fun x => max (-x) 0))).2 fun j => le_max_right _ _, ?_, ?_, ?_⟩
  · refine (fn_id hE).symm.trans ?_
    have : ∀ x : ℝ, (x : ℂ) = ((max x 0 : ℝ) : ℂ) - ((max (-x) 0 : ℝ) : ℂ) := by
      intro x
      rw [← Complex.ofReal_sub]
      congr 1
      rcases le_total x 0 with h | h
      · rw [max_eq_right h, max_eq_left (by linarith)]; ring
      · rw [max_eq_left h, max_eq_right (by linarith)]; ring
    ext i l
    rw [Matrix.sub_apply, fn_apply, fn_apply, fn_apply, ← Finset.sum_sub_distrib]
    refine Finset.sum_congr rfl fun j _ => ?_
    rw [this ((d A).2 j)]
    ring
  · rw [fn_mul hE.left]
    have : (fn (d A).1 (d A).2 (fun _ => (0 : ℂ))) = 0 := by unfold fn; simp
    rw [← this]
    refine fn_congr _ fun j => ?_
    rw [← Complex.ofReal_mul]
    rcases le_total ((d A).2 j) 0 with h | h
    · rw [max_eq_right h]; simp
    · rw [max_eq_right (show -(d A).2 j ≤ 0 by linarith)]; simp
  · intro p h h0
    obtain ⟨S, h1, _⟩ := pow_some (p := p) (h := h) hd hA (Or.inl h0.le)
    obtain ⟨S', h1', _⟩ := pow_some (p := p) (h := h) hd hP.1 (Or.inl h0.le)
    refine ⟨_, _, h1, h1', ?_⟩
    refine Eq.trans ?_ (fn_unique (hd _ hP.1) hPE (fun x => (powFn p x : ℂ))).symm
    show fn (d A).1 (d A).2 (fun x => (powFn p x : ℂ)) = _
    unfold fn
    congr 3
    funext j
    show ((powFn p ((d A).2 j) : ℝ) : ℂ) = ((powFn p (max ((d A).2 j) 0) : ℝ) : ℂ)
    congr 1
    have hq : ∀ x, powFn p x = if x < 0 then 0 else x ^ p := fun x => by
      unfold powFn
      rw [if_neg (by rintro ⟨h1, _⟩; linarith)]
      simp [h0.le]
    rw [hq, hq, if_neg (not_lt.2 (le_max_right _ _))]
    by_cases hn : (d A).2 j < 0
    · rw [if_pos hn, max_eq_right hn.le, Real.zero_rpow h0.ne']
    · rw [if_neg hn, max_eq_left (not_lt.1 hn)]

/-- When the caller handles singular matrices, the inverse square root of a positive semidefinite matrix is that on its range: `R A R` is the projector on the range. The flag tells
whether the matrix is singular. -/
theorem C86_pseudoinverse {d : Diag n} (hd : DiagOK d) {A : Mat n} (hA : A.PosSemidef) :
    ∃ r, invsqrt d A true = some r ∧ (r.singular ↔ ¬ A.PosDef) ∧
      (let P := r.value * A * r.value; P * P = P ∧ P.IsHermitian ∧ P * A = A ∧ r.value * P = r.value ∧ r.value.IsHermitian) := by
  obtain ⟨S, h1, h2⟩ := pow_some (p := -0.5) (h := true) hd hA.1 (Or.inr (Or.inl rfl))
  refine ⟨_, h1, ?_, ?_⟩
  · show S ↔ _
    rw [h2]
    exact ⟨fun h => h.2, fun h => ⟨by norm_num, h⟩⟩
  · obtain ⟨q1, q2, q3, q4, q5, _⟩ := invsqrt_psd (hd A hA.1) hA rfl
    exact ⟨q2, q3, q4, q5, q1⟩

/-- Making a set of columns orthonormal with the inverse square root of its overlap: the result is orthonormal, spans the same space, and it is the orthonormal set closest to the original,
uniquely so. The flag is set exactly if the columns are linearly dependent. -/
theorem C86_closest {d : Diag n} (hd : DiagOK d) (U : Matrix (Fin m) (Fin n) ℂ) :
    ∃ W S, fixUnitary d U = some (W, S) ∧ (S ↔ ¬ (Uᴴ * U).PosDef) ∧
      (¬ S → Wᴴ * W = 1 ∧ (∃ T : Mat n, U = W * T ∧ T.PosDef) ∧ ∀ W' : Matrix (Fin m) (Fin n) ℂ, W'ᴴ * W' = 1 → dist2 U W ≤ dist2 U W' ∧ (dist2 U W' = dist2 U W → W' = W)) := by
  have hA : (Uᴴ * U).PosSemidef := posSemidef_conjTranspose_mul_self U
  obtain ⟨r, h1, h2, h3⟩ := C86_pseudoinverse hd hA
  refine ⟨U * r.value, r.singular, ?_, h2, ?_⟩
  · unfold fixUnitary; rw [h1]; rfl
  · intro hs
    have hP : (Uᴴ * U).PosDef := by by_contra hc; exact hs (h2.2 hc)
    obtain ⟨R, p1, p2, p3, p4, p5, -⟩ := C86_powers hd hP
    obtain ⟨r', q1, q2, -⟩ := p1 (-0.5) true
    have hr : r.value = R (-0.5) := by
      have : r = r' := Option.some.inj (h1.symm.trans q1)
      rw [this, q2]
    have hH : ∀ p, (R p).IsHermitian := fun p => (p2 p).1
    have hW : (U * R (-0.5))ᴴ * (U * R (-0.5)) = 1 := by
      rw [conjTranspose_mul, (hH _).eq]
      calc R (-0.5) * Uᴴ * (U * R (-0.5)) = R (-0.5) * (Uᴴ * U) * R (-0.5) := by simp only [Matrix.mul_assoc]
        _ = R (-0.5) * R 1 * R (-0.5) := by rw [p5]
        _ = 1 := by rw [p3, p3, ← p4]; norm_num
    have hU : U = U * R (-0.5) * R (1/2) := by
      rw [Matrix.mul_assoc, p3, show (-0.5 + 1/2 : ℝ) = 0 by norm_num, p4, Matrix.mul_one]
    rw [hr]
    refine ⟨hW, ⟨R (1/2), hU, p2 _⟩, ?_⟩
    intro W' hW'
    have hd := dist_diff (T := R (1/4)) (hH (1/2)) (hH _) (by rw [p3]; norm_num) hU hW hW'
    have h0 : 0 ≤ ∑ a, ∑ b, ‖((U * R (-0.5) - W') * R (1/4)) a b‖ ^ 2 := Finset.sum_nonneg fun a _ => Finset.sum_nonneg fun b _ => sq_nonneg _
    refine ⟨by linarith, fun he => ?_⟩
    have hz : ∑ a, ∑ b, ‖((U * R (-0.5) - W') * R (1/4)) a b‖ ^ 2 = 0 := by rw [← hd, he, sub_self]
    have hz' : (U * R (-0.5) - W') * R (1/4) = 0 := by
      ext a b
      have h4 := (Finset.sum_eq_zero_iff_of_nonneg fun a _ => Finset.sum_nonneg fun b _ => sq_nonneg _).1 hz a (Finset.mem_univ a)
      have h5 := (Finset.sum_eq_zero_iff_of_nonneg fun b _ => sq_nonneg _).1 h4 b (Finset.mem_univ b)
      simpa using h5
    have : U * R (-0.5) - W' = 0 := by
      have e := congrArg (fun X : Matrix (Fin m) (Fin n) ℂ => X * R (-(1/4))) hz'
      simp only [Matrix.mul_assoc, Matrix.zero_mul] at e
      rwa [p3, show (1/4 + -(1/4) : ℝ) = 0 by norm_num, p4, Matrix.mul_one] at e
    exact (sub_eq_zero.1 this).symm

/-- Wannier rotations: if the columns of the first rotation are independent, then either an error is reported or all the rotations are unitary afterwards. Missing: the case that the columns
of the first rotation are dependent. -/
theorem C86_rotations_partial {d : Diag n} (hd : DiagOK d) (U1 : Matrix (Fin m) (Fin n) ℂ) (U2 : Mat n) (h1 : (U1ᴴ * U1).PosDef) :
    (fixBoth d U1 U2 = none ↔ ¬ (U2ᴴ * U2).PosDef) ∧ ∀ V1 V2 V, fixBoth d U1 U2 = some (V1, V2, V) → V1ᴴ * V1 = 1 ∧ V2ᴴ * V2 = 1 ∧ V = V1 * V2 ∧ Vᴴ * V = 1 := by
  obtain ⟨W1, S1, e1, s1, f1⟩ := C86_closest hd U1
  obtain ⟨W2, S2, e2, s2, f2⟩ := C86_closest hd U2
  have hf : fixBoth d U1 U2 = open Classical in if S2 then none else some (W1, W2, W1 * W2) := by
    unfold fixBoth
    rw [e1, e2]
    rfl
  obtain ⟨g1, -⟩ := f1 (fun h => (s1.1 h) h1)
  by_cases hS : S2
  · rw [hf, if_pos hS]
    exact ⟨⟨fun _ => s2.1 hS, fun _ => rfl⟩, fun _ _ _ h => by simp at h⟩
  · rw [hf, if_neg hS]
    obtain ⟨g2, -⟩ := f2 hS
    refine ⟨⟨fun h => by simp at h, fun h => absurd (s2.2 h) hS⟩, fun V1 V2 V h => ?_⟩
    simp only [Option.some.injEq, Prod.mk.injEq] at h
    obtain ⟨rfl, rfl, rfl⟩ := h
    refine ⟨g1, g2, rfl, ?_⟩
    rw [conjTranspose_mul]
    calc W2ᴴ * W1ᴴ * (W1 * W2) = W2ᴴ * (W1ᴴ * W1) * W2 := by simp only [Matrix.mul_assoc]
      _ = 1 := by rw [g1, Matrix.mul_one, g2]

/-- The error is lost when only the first rotation is singular: no error, and the rotations are not unitary. -/
theorem C86_lost_flag_fails : ∃ (d : Diag 2) (U1 U2 V1 V2 V : Mat 2), DiagOK d ∧ ¬ (U1ᴴ * U1).PosDef ∧ U2ᴴ * U2 = 1 ∧ fixBoth d U1 U2 = some (V1, V2, V) ∧ Vᴴ * V ≠ 1 := by
  have hd : DiagOK (ElecMin.std 2).eig := fun A hA => ElecMin.std_OK.eig A hA
  set U1 : Mat 2 := !![1, 1; 0, 0] with hU1
  have h1 : ¬ (U1ᴴ * U1).PosDef := by
    intro h
    have := h.isUnit.map Matrix.detMonoidHom
    rw [Matrix.coe_detMonoidHom, Matrix.det_mul] at this
    simp [hU1, Matrix.det_fin_two] at this
  obtain ⟨W1, S1, e1, s1, f1⟩ := C86_closest hd U1
  obtain ⟨W2, S2, e2, s2, f2⟩ := C86_closest hd (1 : Mat 2)
  have hS2 : ¬ S2 := fun h => s2.1 h (by rw [conjTranspose_one, Matrix.one_mul]; exact PosDef.one)
  refine ⟨_, U1, 1, W1, W2, W1 * W2, hd, h1, by simp, ?_, ?_⟩
  · unfold fixBoth
    rw [e1, e2]
    show (open Classical in if S2 then none else some (W1, W2, W1 * W2)) = _
    rw [if_neg hS2]
  · intro h
    have hW1 : ∃ T : Mat 2, W1 = U1 * T := by
      unfold fixUnitary at e1
      obtain ⟨r, _, hr⟩ := Option.map_eq_some_iff.1 e1
      simp only [Prod.mk.injEq] at hr
      exact ⟨r.value, hr.1.symm⟩
    obtain ⟨T, rfl⟩ := hW1
    have hdet := congrArg Matrix.det h
    rw [Matrix.det_mul, Matrix.det_mul, Matrix.det_mul, Matrix.det_one] at hdet
    have : U1.det = 0 := by simp [hU1, Matrix.det_fin_two]
    rw [this] at hdet
    simp at hdet

/-- `cis` is the exponential of `i A`; it is unitary for Hermitian `A`. -/
theorem C86_cis {d : Diag n} (hd : DiagOK d) {A : Mat n} (hA : A.IsHermitian) :
    cis d A = NormedSpace.exp (Complex.I • A) ∧ (cis d A)ᴴ * cis d A = 1 ∧ cis d (-A) = (cis d A)ᴴ := by
  have hexp : ∀ A : Mat n, A.IsHermitian → cis d A = NormedSpace.exp (Complex.I • A) := by
    intro A hA
    have hE := hd A hA
    have hu : IsUnit (d A).1 := IsUnit.of_mul_eq_one _ hE.right
    have hinv : ((d A).1)⁻¹ = ((d A).1)ᴴ := Matrix.inv_eq_right_inv hE.right
    have e : Complex.I • A = (d A).1 * diagonal (fun i => Complex.I * ((d A).2 i : ℂ)) * ((d A).1)⁻¹ := by
      rw [hinv]
      nth_rw 1 [eig_eq hE]
      rw [← Matrix.smul_mul, ← Matrix.mul_smul]
      congr 2
      rw [← diagonal_smul]; rfl
    rw [e, Matrix.exp_conj _ _ hu, Matrix.exp_diagonal, hinv]
    unfold cis assemble
    congr 3
    funext i
    rw [Pi.coe_exp, Complex.exp_eq_exp_ℂ]
  refine ⟨hexp A hA, ?_, ?_⟩
  · have hE := hd A hA
    show (fn (d A).1 (d A).2 (fun x => Complex.exp (Complex.I * x)))ᴴ * fn (d A).1 (d A).2 (fun x => Complex.exp (Complex.I * x)) = 1
    rw [fn_dagger, fn_mul hE.left]
    refine Eq.trans (fn_congr _ fun j => ?_) (fn_one hE.right (d A).2)
    rw [← Complex.exp_conj, ← Complex.exp_add]
    simp
  · rw [hexp _ hA.neg, hexp _ hA, ← Matrix.exp_conjTranspose, conjTranspose_smul, hA.eq, smul_neg, ← neg_smul]
    simp

/-- `cisInv` inverts `cis`: its result is Hermitian with eigenvalues in `(-π, π]` and gives back the unitary matrix; on matrices with such eigenvalues it undoes `cis`. -/
theorem C86_cisInv {d : Diag n} (hd : DiagOK d) {e : DiagU n} :
    (∀ U : Mat n, Uᴴ * U = 1 → DiagUOK e U → (cisInv e U).IsHermitian ∧ cis d (cisInv e U) = U ∧
      ∃ (V : Mat n) (κ : Fin n → ℝ), Eig (cisInv e U) V κ ∧ ∀ i, κ i ∈ Set.Ioc (-Real.pi) Real.pi) ∧
    ∀ A : Mat n, A.IsHermitian → (∀ i, (d A).2 i ∈ Set.Ioc (-Real.pi) Real.pi) → DiagUOK e (cis d A) → cisInv e (cis d A) = A := by
  have key : ∀ U : Mat n, Uᴴ * U = 1 → DiagUOK e U → Eig (cisInv e U) (e U).1 (fun i => Complex.arg ((e U).2 i)) ∧ ∀ i, ‖(e U).2 i‖ = 1 := by
    intro U hU ⟨h1, h2⟩
    have hr := mul_eq_one_comm.1 h1
    refine ⟨⟨h1, hr, ?_⟩, fun i => ?_⟩
    · unfold cisInv; rw [Matrix.mul_assoc, h1, Matrix.mul_one]
    · have e1 : (diagonal (e U).2)ᴴ * diagonal (e U).2 = 1 := by
        have : diagonal (e U).2 = ((e U).1)ᴴ * (U * (e U).1) := by rw [h2, ← Matrix.mul_assoc, h1, Matrix.one_mul]
        rw [this, conjTranspose_mul, conjTranspose_mul, conjTranspose_conjTranspose]
        calc ((e U).1)ᴴ * Uᴴ * (e U).1 * (((e U).1)ᴴ * (U * (e U).1)) = ((e U).1)ᴴ * Uᴴ * ((e U).1 * ((e U).1)ᴴ) * U * (e U).1 := by simp only [Matrix.mul_assoc]
          _ = ((e U).1)ᴴ * (Uᴴ * U) * (e U).1 := by rw [hr, Matrix.mul_one]; simp only [Matrix.mul_assoc]
          _ = 1 := by rw [hU, Matrix.mul_one, h1]
      have e2 := congrFun (congrFun e1 i) i
      rw [diagonal_conjTranspose, diagonal_mul_diagonal, diagonal_apply_eq, one_apply_eq, Pi.star_apply, Complex.star_def, ← Complex.normSq_eq_conj_mul_self] at e2
      have e3 : Complex.normSq ((e U).2 i) = 1 := by exact_mod_cast e2
      rw [Complex.normSq_eq_norm_sq] at e3
      nlinarith [norm_nonneg ((e U).2 i)]
  have key2 : ∀ U : Mat n, Uᴴ * U = 1 → DiagUOK e U → cis d (cisInv e U) = U := by
    intro U hU hO
    obtain ⟨hE, hn⟩ := key U hU hO
    show fn _ _ (fun x => Complex.exp (Complex.I * x)) = U
    rw [fn_unique (hd _ (eig_herm hE)) hE]
    have : fn (e U).1 (fun i => Complex.arg ((e U).2 i)) (fun x => Complex.exp (Complex.I * x)) = (e U).1 * diagonal (e U).2 * ((e U).1)ᴴ := by
      unfold fn
      congr 3
      funext i
      have := Complex.norm_mul_exp_arg_mul_I ((e U).2 i)
      rw [hn i, Complex.ofReal_one, one_mul] at this
      show Complex.exp (Complex.I * _) = _
      rw [mul_comm, this]
    rw [this, ← hO.2, Matrix.mul_assoc, hE.right, Matrix.mul_one]
  refine ⟨fun U hU hO => ⟨eig_herm (key U hU hO).1, key2 U hU hO, _, _, (key U hU hO).1, fun i => ⟨Complex.neg_pi_lt_arg _, Complex.arg_le_pi _⟩⟩, ?_⟩
  intro A hA hk hO
  have hE := hd A hA
  have hU := (C86_cis hd hA).2.1
  obtain ⟨hE', hn⟩ := key _ hU hO
  -- the eigenvectors of the exponential are those of a Hermitian matrix with the same exponential
  set W := ((d A).1)ᴴ * (e (cis d A)).1 with hW
  have hc : ∀ i j, Complex.exp (Complex.I * (d A).2 i) * W i j = W i j * (e (cis d A)).2 j := by
    have e1 : diagonal (fun i => Complex.exp (Complex.I * (d A).2 i)) * W = W * diagonal (e (cis d A)).2 := by
      rw [hW, Matrix.mul_assoc, ← hO.2]
      have e2 : cis d A * (e (cis d A)).1 = (d A).1 * diagonal (fun i => Complex.exp (Complex.I * (d A).2 i)) * ((d A).1)ᴴ * (e (cis d A)).1 := rfl
      rw [e2]
      calc diagonal (fun i => Complex.exp (Complex.I * (d A).2 i)) * (((d A).1)ᴴ * (e (cis d A)).1)
          = (((d A).1)ᴴ * (d A).1) * diagonal (fun i => Complex.exp (Complex.I * (d A).2 i)) * ((d A).1)ᴴ * (e (cis d A)).1 := by
            rw [hE.left, Matrix.one_mul, Matrix.mul_assoc]
        _ = _ := by simp only [Matrix.mul_assoc]
    intro i j
    have := congrFun (congrFun e1 i) j
    rwa [Matrix.diagonal_mul, Matrix.mul_diagonal] at this
  have hc2 : diagonal (fun i => ((d A).2 i : ℂ)) * W = W * diagonal (fun i => ((Complex.arg ((e (cis d A)).2 i) : ℝ) : ℂ)) := by
    ext i j
    rw [Matrix.diagonal_mul, Matrix.mul_diagonal]
    by_cases h0 : W i j = 0
    · rw [h0]; simp
    · have h1 := hc i j
      rw [mul_comm, mul_right_inj' h0] at h1
      rw [← h1, mul_comm Complex.I, Complex.arg_exp_mul_I, (toIocMod_eq_self Real.two_pi_pos).2, mul_comm]
      have := hk i
      rw [show -Real.pi + 2 * Real.pi = Real.pi by ring]
      exact this
  unfold cisInv
  calc (e (cis d A)).1 * diagonal (fun i => ((Complex.arg ((e (cis d A)).2 i) : ℝ) : ℂ)) * ((e (cis d A)).1)ᴴ
      = ((d A).1 * ((d A).1)ᴴ) * (e (cis d A)).1 * diagonal (fun i => ((Complex.arg ((e (cis d A)).2 i) : ℝ) : ℂ)) * ((e (cis d A)).1)ᴴ := by rw [hE.right, Matrix.one_mul]
    _ = (d A).1 * (W * diagonal (fun i => ((Complex.arg ((e (cis d A)).2 i) : ℝ) : ℂ))) * ((e (cis d A)).1)ᴴ := by rw [hW]; simp only [Matrix.mul_assoc]
    _ = (d A).1 * diagonal (fun i => ((d A).2 i : ℂ)) * ((d A).1)ᴴ * ((e (cis d A)).1 * ((e (cis d A)).1)ᴴ) := by rw [← hc2, hW]; simp only [Matrix.mul_assoc]
    _ = A := by rw [hE'.right, Matrix.mul_one]; exact (eig_eq hE).symm

/-- `sqrt_grad` gives the gradient with respect to the matrix from the one with respect to its square root. -/
theorem C86_sqrt_grad {d : Diag n} (hd : DiagOK d) {A : ℝ → Mat n} {A' : Mat n} (hA : ∀ t, (A t).IsHermitian) (hA' : ∀ i j, HasDerivAt (fun t => A t i j) (A' i j) 0)
    (hP : (A 0).PosDef) (G : Mat n) :
    ∃ r : ℝ → Pow n, (∀ t, pow d (A t) (1/2) false = some (r t)) ∧ HasDerivAt (fun t => (G * (r t).value).trace) (sqrtGrad G (r 0).evecs (r 0).eigs * A').trace 0 := by
  have hr : ∀ t, ∃ r, pow d (A t) (1/2) false = some r := fun t => by
    obtain ⟨S, h1, _⟩ := pow_some (p := 1/2) (h := false) hd (hA t) (Or.inl (by norm_num))
    exact ⟨_, h1⟩
  choose r hr using hr
  refine ⟨r, hr, ?_⟩
  have hv : ∀ t, (r t).value = fn (d (A t)).1 (d (A t)).2 (fun x => (Real.sqrt x : ℂ)) := fun t => by
    rw [(pow_value hd (hA t) (hr t)).1]
    exact fn_congr _ fun j => by rw [powFn_half]
  have hk := (eig_pos (hd _ (hA 0))).1 hP
  have hD := fn_deriv' (K := A) (V := fun t => (d (A t)).1) (κ := fun t => (d (A t)).2) (fun t => hd _ (hA t)) hA' (f := Real.sqrt)
    (fun i => (Real.hasDerivAt_sqrt (hk i).ne').differentiableAt)
  have hT := (MDeriv.const G 0).mul hD
  rw [Matrix.zero_mul, zero_add] at hT
  have hTr := MDeriv_trace hT
  have hfun : (fun t => (G * (r t).value).trace) = fun t => (G * fn (d (A t)).1 (d (A t)).2 (fun x => (Real.sqrt x : ℂ))).trace := by
    funext t; rw [hv t]
  rw [hfun]
  refine hTr.congr_deriv ?_
  refine (trace_dd _ G A' _ (fun i j => 1 / ((Real.sqrt ((r 0).eigs i) + Real.sqrt ((r 0).eigs j) : ℝ) : ℂ)) ?_).trans ?_
  · intro i l
    rw [(pow_value hd (hA 0) (hr 0)).2.2.1]
    have he : ∀ j, eigFn (1/2) ((d (A 0)).2 j) = (d (A 0)).2 j := fun j => by
      unfold eigFn; rw [if_neg (by rintro ⟨_, h⟩; linarith [hk j])]
    simp only [he]
    rw [← Complex.ofReal_one, ← Complex.ofReal_div]
    congr 1
    unfold dd
    set a := (d (A 0)).2 i
    set b := (d (A 0)).2 l
    have ha : 0 < a := hk i
    have hb : 0 < b := hk l
    have hsa := Real.sqrt_pos.2 ha
    have hsb := Real.sqrt_pos.2 hb
    by_cases hab : b = a
    · rw [hab, dslope_same, (Real.hasDerivAt_sqrt ha.ne').deriv]
      field_simp; ring
    · rw [dslope_of_ne _ hab, slope_def_field]
      have h1 : b - a = (Real.sqrt b - Real.sqrt a) * (Real.sqrt b + Real.sqrt a) := by
        ring_nf; rw [Real.sq_sqrt hb.le, Real.sq_sqrt ha.le]
      have h2 : Real.sqrt b - Real.sqrt a ≠ 0 := by
        intro h; apply hab; rw [h, zero_mul] at h1; linarith
      rw [h1]
      field_simp
  · unfold sqrtGrad
    rw [(pow_value hd (hA 0) (hr 0)).2.1]

/-- `cis_grad` gives the gradient with respect to the matrix, if the gradient with respect to the exponential is given relative to its value (rotated by the adjoint of the exponential, as in the
minimisation of imaginary parts in DumpQMC.cpp:84). -/
theorem C86_cis_grad {d : Diag n} (hd : DiagOK d) {A : ℝ → Mat n} {A' : Mat n} (hA : ∀ t, (A t).IsHermitian) (hA' : ∀ i j, HasDerivAt (fun t => A t i j) (A' i j) 0)
    (ha : Apart (d (A 0)).2) (G : Mat n) :
    HasDerivAt (fun t => (G * (cis d (A t) * (cis d (A 0))ᴴ)).trace) (cisGrad G (d (A 0)).1 (d (A 0)).2 * A').trace 0 := by
  have hE := fun t => hd _ (hA t)
  have hc := fn_deriv' (K := A) (V := fun t => (d (A t)).1) (κ := fun t => (d (A t)).2) hE hA' (f := Real.cos) (fun i => Real.differentiable_cos _)
  have hs := fn_deriv' (K := A) (V := fun t => (d (A t)).1) (κ := fun t => (d (A t)).2) hE hA' (f := Real.sin) (fun i => Real.differentiable_sin _)
  set V := (d (A 0)).1 with hV
  set κ := (d (A 0)).2 with hκ
  have hcis : MDeriv (fun t => cis d (A t)) (V * (Matrix.of fun i l => (Vᴴ * A' * V) i l * ((dd Real.cos (κ i) (κ l) : ℂ) + Complex.I * dd Real.sin (κ i) (κ l))) * Vᴴ) 0 := by
    intro a b
    have h := (hc a b).add ((hs a b).const_mul Complex.I)
    have e1 : (fun t => cis d (A t) a b) = fun t => fn (d (A t)).1 (d (A t)).2 (fun x => (Real.cos x : ℂ)) a b
        + Complex.I * fn (d (A t)).1 (d (A t)).2 (fun x => (Real.sin x : ℂ)) a b := by
      funext t
      show fn (d (A t)).1 (d (A t)).2 (fun x => Complex.exp (Complex.I * x)) a b = _
      rw [fn_apply, fn_apply, fn_apply, Finset.mul_sum, ← Finset.sum_add_distrib]
      refine Finset.sum_congr rfl fun j _ => ?_
      rw [mul_comm Complex.I, Complex.exp_mul_I]
      push_cast; ring
    rw [e1]
    refine h.congr_deriv ?_
    have e2 : (Matrix.of fun i l => (Vᴴ * A' * V) i l * ((dd Real.cos (κ i) (κ l) : ℂ) + Complex.I * dd Real.sin (κ i) (κ l)))
        = (Matrix.of fun i l => (Vᴴ * A' * V) i l * (dd Real.cos (κ i) (κ l) : ℂ)) + Complex.I • Matrix.of fun i l => (Vᴴ * A' * V) i l * (dd Real.sin (κ i) (κ l) : ℂ) := by
      ext i l; simp; ring
    rw [e2, Matrix.mul_add, Matrix.add_mul, Matrix.mul_smul, Matrix.smul_mul]
    rfl
  set U0 := cis d (A 0) with hU0
  have hT := (MDeriv.const (U0ᴴ * G) 0).mul hcis
  rw [Matrix.zero_mul, zero_add] at hT
  have hTr := MDeriv_trace hT
  have hfun : (fun t => (G * (cis d (A t) * U0ᴴ)).trace) = fun t => (U0ᴴ * G * cis d (A t)).trace := by
    funext t
    rw [← Matrix.mul_assoc, Matrix.trace_mul_comm, Matrix.mul_assoc]
  rw [hfun]
  refine hTr.congr_deriv ?_
  refine (trace_dd V (U0ᴴ * G) A' _ (fun l i => (dd Real.cos (κ i) (κ l) : ℂ) + Complex.I * dd Real.sin (κ i) (κ l)) (fun i l => rfl)).trans ?_
  congr 2
  have hVl : Vᴴ * V = 1 := (hE 0).left
  have e3 : Vᴴ * (U0ᴴ * G) * V = diagonal (fun i => Complex.exp (-(Complex.I * κ i))) * (Vᴴ * G * V) := by
    have : U0ᴴ = V * diagonal (fun i => Complex.exp (-(Complex.I * κ i))) * Vᴴ := by
      show (fn V κ (fun x => Complex.exp (Complex.I * x)))ᴴ = fn V κ (fun x => Complex.exp (-(Complex.I * x)))
      rw [fn_dagger]
      exact fn_congr V fun j => by rw [← Complex.exp_conj]; simp
    rw [this]
    calc Vᴴ * (V * diagonal (fun i => Complex.exp (-(Complex.I * κ i))) * Vᴴ * G) * V
        = (Vᴴ * V) * diagonal (fun i => Complex.exp (-(Complex.I * κ i))) * (Vᴴ * G * V) := by simp only [Matrix.mul_assoc]
      _ = _ := by rw [hVl, Matrix.one_mul]
  unfold cisGrad funcGrad
  congr 2
  ext i j
  simp only [Matrix.of_apply]
  rw [e3, Matrix.diagonal_mul]
  have hx : Complex.exp (-(Complex.I * κ i)) * ((dd Real.cos (κ j) (κ i) : ℂ) + Complex.I * dd Real.sin (κ j) (κ i))
      = (open Classical in if |κ j - κ i| < 1e-13 then (⟨-0.5 * (κ j - κ i), 1⟩ : ℂ) else (Complex.exp (Complex.I * ((κ j - κ i : ℝ) : ℂ)) - 1) / ((κ j - κ i : ℝ) : ℂ)) := by
    have hcs : ∀ x : ℝ, Complex.exp (Complex.I * x) = (Real.cos x : ℂ) + Complex.I * Real.sin x := fun x => by
      rw [mul_comm, Complex.exp_mul_I]; push_cast; ring
    by_cases hij : κ i = κ j
    · rw [hij, sub_self, abs_zero, if_pos (by norm_num)]
      unfold dd
      rw [dslope_same, dslope_same, Real.deriv_cos, Real.deriv_sin]
      have : (((-Real.sin (κ j) : ℝ) : ℂ) + Complex.I * ((Real.cos (κ j) : ℝ) : ℂ)) = Complex.I * Complex.exp (Complex.I * κ j) := by
        rw [hcs, mul_add, ← mul_assoc, Complex.I_mul_I]; push_cast; ring
      rw [this, mul_left_comm, ← Complex.exp_add, neg_add_cancel, Complex.exp_zero]
      apply Complex.ext <;> simp
    · rw [if_neg (not_lt.2 (ha i j hij))]
      unfold dd
      rw [dslope_of_ne _ hij, dslope_of_ne _ hij, slope_def_field, slope_def_field]
      have hne : ((κ j - κ i : ℝ) : ℂ) ≠ 0 := by
        rw [Complex.ofReal_ne_zero]; exact sub_ne_zero.2 (Ne.symm hij)
      have hne' : ((κ i - κ j : ℝ) : ℂ) ≠ 0 := by
        rw [Complex.ofReal_ne_zero]; exact sub_ne_zero.2 hij
      have e4 : (((Real.cos (κ i) - Real.cos (κ j)) / (κ i - κ j) : ℝ) : ℂ) + Complex.I * (((Real.sin (κ i) - Real.sin (κ j)) / (κ i - κ j) : ℝ) : ℂ)
          = (Complex.exp (Complex.I * κ j) - Complex.exp (Complex.I * κ i)) / ((κ j - κ i : ℝ) : ℂ) := by
        rw [hcs, hcs, Complex.ofReal_div, Complex.ofReal_div, show ((κ j - κ i : ℝ) : ℂ) = -((κ i - κ j : ℝ) : ℂ) by push_cast; ring]
        field_simp
        push_cast; ring
      rw [e4, ← mul_div_assoc, mul_sub, ← Complex.exp_add, ← Complex.exp_add, neg_add_cancel, Complex.exp_zero]
      congr 3
      push_cast; ring
  rw [mul_right_comm, hx, mul_comm]

/-- Taken literally, "gradient with respect to A given the gradient with respect to cis(A)" is not what `cis_grad` returns. -/
theorem C86_cis_grad_literal_fails : ∃ (d : Diag 1) (A : ℝ → Mat 1) (A' G : Mat 1), DiagOK d ∧ (∀ t, (A t).IsHermitian) ∧ (∀ i j, HasDerivAt (fun t => A t i j) (A' i j) 0) ∧
    Apart (d (A 0)).2 ∧ ¬ HasDerivAt (fun t => (G * cis d (A t)).trace.re) (cisGrad G (d (A 0)).1 (d (A 0)).2 * A').trace.re 0 := by
  refine ⟨fun A => (1, fun _ => (A 0 0).re), fun t => diagonal fun _ => ((Real.pi + t : ℝ) : ℂ), 1, diagonal fun _ => -Complex.I, ?_, ?_, ?_, ?_, ?_⟩
  · intro A hA
    refine ⟨by simp, by simp, ?_⟩
    rw [Matrix.mul_one, Matrix.one_mul]
    ext i j
    have hi : i = 0 := Subsingleton.elim _ _
    have hj : j = 0 := Subsingleton.elim _ _
    subst hi; subst hj
    rw [diagonal_apply_eq]
    have h := congrFun (congrFun hA 0) 0
    rw [conjTranspose_apply, Complex.star_def] at h
    exact (Complex.conj_eq_iff_re.1 h).symm
  · intro t
    unfold Matrix.IsHermitian
    rw [diagonal_conjTranspose]
    congr 1
    funext i
    simp
  · intro i j
    have hi : i = 0 := Subsingleton.elim _ _
    have hj : j = 0 := Subsingleton.elim _ _
    subst hi; subst hj
    simp only [diagonal_apply_eq, one_apply_eq]
    exact (ofReal_deriv ((hasDerivAt_id (0 : ℝ)).const_add Real.pi)).congr_deriv (by simp)
  · intro i j h
    exact absurd (by rw [Subsingleton.elim i j]) h
  · intro h
    have h1 : (fun t : ℝ => ((diagonal fun _ => -Complex.I : Mat 1) * cis (fun A => (1, fun _ => (A 0 0).re)) (diagonal fun _ => ((Real.pi + t : ℝ) : ℂ))).trace.re)
        = fun t => Real.sin (Real.pi + t) := by
      funext t
      unfold cis assemble
      simp only [Matrix.trace, Fin.sum_univ_one, conjTranspose_one, Matrix.mul_one, Matrix.one_mul, diagonal_mul_diagonal, diag_apply, diagonal_apply_eq, Complex.ofReal_re]
      rw [mul_comm Complex.I, Complex.exp_mul_I, ← Complex.ofReal_cos, ← Complex.ofReal_sin]
      simp only [Complex.mul_re, Complex.neg_re, Complex.neg_im, Complex.I_re, Complex.I_im, Complex.add_re, Complex.add_im, Complex.mul_im, Complex.ofReal_re, Complex.ofReal_im]
      ring
    rw [h1] at h
    have h2 : HasDerivAt (fun t => Real.sin (Real.pi + t)) (-1) 0 := by
      have := ((hasDerivAt_id (0 : ℝ)).const_add Real.pi).sin
      simpa using this
    have h3 := h.unique h2
    simp only [cisGrad, funcGrad, Matrix.trace, Fin.sum_univ_one, conjTranspose_one, Matrix.mul_one, Matrix.one_mul, diag_apply, Matrix.of_apply, diagonal_apply_eq, sub_self, abs_zero] at h3
    rw [if_pos (by norm_num)] at h3
    simp at h3
    norm_num at h3

/-- Compressed exchange: acting on the orbitals it was built from, the compressed operator and its energy are those of the full exchange operator, also if some combination of orbitals has no
exchange; on any orbitals it never overestimates the (negative of the) exchange operator. -/
theorem C86_exchange {d : Diag n} (hd : DiagOK d) {K : Matrix (Fin m) (Fin m) ℂ} (hK : K.PosSemidef) (C : Matrix (Fin m) (Fin n) ℂ) (aXX weight : ℝ) (F : Fin n → ℝ) :
    ∃ psi, ace d C (K * C) = some psi ∧ aceApply aXX psi C = -((aXX : ℂ) • (K * C)) ∧
      aceEnergy aXX weight psi F C = -(1/2) * aXX * weight * (diagonal (fun b => (F b : ℂ)) * (Cᴴ * (K * C))).trace.re ∧ (K - psi * psiᴴ).PosSemidef := by
  have hM : (Cᴴ * (K * C)).PosSemidef := by
    rw [← Matrix.mul_assoc]; exact hK.conjTranspose_mul_mul_same C
  obtain ⟨S, h1, _⟩ := pow_some (p := -0.5) (h := true) hd hM.1 (Or.inr (Or.inl rfl))
  obtain ⟨R, hR⟩ : ∃ R, R = fn (d (Cᴴ * (K * C))).1 (d (Cᴴ * (K * C))).2 (fun x => (powFn (-0.5) x : ℂ)) := ⟨_, rfl⟩
  rw [← hR] at h1
  obtain ⟨q1, q2, q3, q4, q5, q6, q7, q8⟩ := invsqrt_psd (hd _ hM.1) hM hR
  set M := Cᴴ * (K * C) with hMd
  set P := R * M * R with hP
  have hKP : K * C * P = K * C := by
    have h0 : (C * (1 - P))ᴴ * (K * (C * (1 - P))) = 0 := by
      rw [conjTranspose_mul]
      calc (1 - P)ᴴ * Cᴴ * (K * (C * (1 - P))) = (1 - P)ᴴ * (M * (1 - P)) := by rw [hMd]; simp only [Matrix.mul_assoc]
        _ = 0 := by rw [Matrix.mul_sub, Matrix.mul_one, q7, sub_self, Matrix.mul_zero]
    have h2 := psd_kernel hK h0
    rw [← Matrix.mul_assoc, Matrix.mul_sub, Matrix.mul_one, sub_eq_zero] at h2
    exact h2.symm
  have hpd : (K * C * R)ᴴ = R * (Cᴴ * K) := by rw [conjTranspose_mul, conjTranspose_mul, q1.eq, hK.1.eq]
  have hpsi : (K * C * R)ᴴ * C = R * M := by rw [hpd, hMd]; simp only [Matrix.mul_assoc]
  have hfull : (K * C * R) * ((K * C * R)ᴴ * C) = K * C := by
    rw [hpsi, Matrix.mul_assoc, ← Matrix.mul_assoc R R M, q6, hKP]
  refine ⟨K * C * R, ?_, ?_, ?_, ?_⟩
  · unfold ace invsqrt; rw [h1]; rfl
  · unfold aceApply; rw [hfull]
  · unfold aceEnergy
    rw [hpsi]
    have : (R * M * diagonal (fun b => (F b : ℂ)) * (R * M)ᴴ).trace = (diagonal (fun b => (F b : ℂ)) * M).trace := by
      rw [conjTranspose_mul, q1.eq, hM.1.eq, Matrix.mul_assoc (R * M), Matrix.trace_mul_comm (R * M), Matrix.mul_assoc (diagonal _)]
      congr 2
      calc M * R * (R * M) = M * (R * R * M) := by simp only [Matrix.mul_assoc]
        _ = M := by rw [q6, q7]
    rw [this]
    norm_num
  · have hT := hK.conjTranspose_mul_mul_same (1 - C * (R * R * (Cᴴ * K)))
    have e : (1 - C * (R * R * (Cᴴ * K)))ᴴ * K * (1 - C * (R * R * (Cᴴ * K))) = K - K * C * R * (K * C * R)ᴴ := by
      rw [hpd, conjTranspose_sub, conjTranspose_one, conjTranspose_mul, conjTranspose_mul, conjTranspose_mul, conjTranspose_mul, q1.eq, hK.1.eq, conjTranspose_conjTranspose]
      have e1 : K * C * (R * R) * Cᴴ * K * (C * (R * R * (Cᴴ * K))) = K * C * (R * (R * M * R) * R) * (Cᴴ * K) := by rw [hMd]; simp only [Matrix.mul_assoc]
      rw [← hP, q5] at e1
      rw [Matrix.sub_mul, Matrix.sub_mul, Matrix.mul_sub, Matrix.mul_sub, e1]
      simp only [Matrix.mul_assoc, Matrix.one_mul, Matrix.mul_one]
      abel
    rw [← e]
    exact hT

/-- Linear algebra meeting the promises exists, and there are positive definite and singular matrices, unitary matrices other than the identity and degenerate spectra. -/
example : DiagOK (ElecMin.std n).eig := fun A hA => ElecMin.std_OK.eig A hA

example : (!![2, Complex.I; -Complex.I, 2] : Mat 2).IsHermitian := by
  unfold Matrix.IsHermitian; ext i j; fin_cases i <;> fin_cases j <;> simp [conjTranspose_apply]

/-- For every Hermitian matrix the general routine can return what `C86_cisInv` asks for. -/
example {d : Diag n} (hd : DiagOK d) {A : Mat n} (hA : A.IsHermitian) :
    DiagUOK (fun _ => ((d A).1, fun i => Complex.exp (Complex.I * (d A).2 i))) (cis d A) := by
  refine ⟨(hd A hA).left, ?_⟩
  unfold cis assemble
  rw [Matrix.mul_assoc, (hd A hA).left, Matrix.mul_one]

/-- A path for the derivative theorems. -/
example (A D : Mat n) (hA : A.IsHermitian) (hD : D.IsHermitian) : (∀ t : ℝ, (A + (t : ℂ) • D).IsHermitian) ∧ MDeriv (fun t => A + (t : ℂ) • D) D 0 :=
  ⟨fun t => by unfold Matrix.IsHermitian; rw [conjTranspose_add, conjTranspose_smul, hA.eq, hD.eq]; simp, MDeriv.line A D 0⟩

/-- Eigenvalues of integer spacing are apart. -/
example : Apart (fun i : Fin n => (i.val : ℝ)) := by
  intro i j h
  have h1 : (i.val : ℤ) ≠ j.val := by intro h2; apply h; show (i.val : ℝ) = j.val; exact_mod_cast h2
  have h2 : (1 : ℤ) ≤ |(j.val : ℤ) - i.val| := Int.one_le_abs (sub_ne_zero.2 h1.symm)
  have h3 : (1 : ℝ) ≤ |(j.val : ℝ) - i.val| := by exact_mod_cast h2
  have : (1e-13 : ℝ) ≤ 1 := by norm_num
  linarith

end
end Jdftx.MatFunc
