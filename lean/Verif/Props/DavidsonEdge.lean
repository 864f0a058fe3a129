import Verif.Props.Davidson
import Verif.Lemmas.ElecMinStd

/-! # Property C108: what the Davidson band solver does when the subspace cannot be expanded -/
namespace Jdftx.Davidson
open Matrix Jdftx.ElecMin Jdftx.MatFn
open scoped ComplexOrder ComplexConjugate
noncomputable section

variable {B P : Type} [Fintype B]

/-- LAPACK with ascending eigenvalues exists. -/
def lap (n : ℕ) : Lapack n where
  eig A := open Classical in if h : A.IsHermitian then (sorted_eig_exists h).choose else (1, 0)
  chol A := open Classical in if h : A.PosDef then some (chol_exists h).choose else none

theorem lap_ok : LapackOK lap where
  ok n := {
    eig := fun A h => by
      unfold lap
      simp only [h, dif_pos]
      exact (sorted_eig_exists h).choose_spec.1
    chol := (std_OK (n := n)).chol
    posDef := (std_OK (n := n)).posDef }
  sorted n A h := by
    unfold lap
    simp only [h, dif_pos]
    exact (sorted_eig_exists h).choose_spec.2

theorem hsub_herm {S : Sys B P} (hS : S.OK) {n : ℕ} (C : Matrix B (Fin n) ℂ) : (Cᴴ * (S.H * C)).IsHermitian := by
  unfold Matrix.IsHermitian
  rw [conjTranspose_mul, conjTranspose_mul, conjTranspose_conjTranspose, hS.herm.eq, Matrix.mul_assoc]

theorem fixed_residual {n : ℕ} {H O : Matrix B B ℂ} {C : Matrix B (Fin n) ℂ} {M W : Mat n} {e : Fin n → ℝ} (hC : Cᴴ * (O * C) = 1) (hM : H * C = O * C * M) (he : Eig (Cᴴ * (H * C)) W e) :
    H * C * W = O * (C * W) * diagonal fun b => (e b : ℂ) := by
  have h1 : Cᴴ * (H * C) = M := by rw [hM, ← Matrix.mul_assoc, hC, Matrix.one_mul]
  have h2 := he.eq
  rw [h1] at h2
  rw [hM, Matrix.mul_assoc, h2]
  simp only [Matrix.mul_assoc]

theorem keRef_pos {S : Sys B P} (hS : S.OK) {n : ℕ} (D : Matrix B (Fin n) ℂ) (b : Fin n) (hD : Dᴴ * (S.O * D) = 1) (h : ∀ i, D i b ≠ 0 → 0 < S.kgSq i) : keRef S D b ≠ 0 := by
  have hne : ∃ i, D i b ≠ 0 := by
    by_contra hno
    push Not at hno
    have h1 := congrFun (congrFun hD b) b
    rw [mul_apply, Matrix.one_apply_eq, Finset.sum_eq_zero (fun i _ => by rw [conjTranspose_apply, hno i, star_zero, zero_mul])] at h1
    exact zero_ne_one h1
  obtain ⟨i, hi⟩ := hne
  rw [keRef_eq]
  have hs : 0 < ∑ i, S.kgSq i * Complex.normSq (D i b) :=
    Finset.sum_pos' (fun j _ => mul_nonneg (hS.kinetic j) (Complex.normSq_nonneg _)) ⟨i, Finset.mem_univ _, mul_pos (h i hi) (Complex.normSq_pos.2 hi)⟩
  have := mul_pos hS.volume hs
  positivity

/-- **C108 (solutions).** Wavefunctions that already span exact solutions are recognised as such in the first iteration. What is left are exact solutions, in the same space. -/
theorem C108_solutions (l : ∀ n, Lapack n) (hl : LapackOK l) (S : Sys B P) (hS : S.OK) (p : Params) (hp : p.OK) (hthr : 0 < p.thr) (hsize : 2 * nMax p < p.nbasis) (hit : 0 < p.nIter)
    (C : Matrix B (Fin p.nOut) ℂ) (V : Matrix P (Fin p.nOut) ℂ) (hC : Cᴴ * (S.O * C) = 1) (M : Mat p.nOut) (hM : S.H * C = S.O * C * M)
    (hke : ∀ i b, C i b ≠ 0 → 0 < S.kgSq i) :
    ∃ r, minimize l S p C V = .ok r ∧ r.verdict = .empty ∧ S.H * r.C = S.O * r.C * (diagonal fun b => (r.eigs b : ℂ)) ∧ Within r.C C ∧ Within C r.C := by
  have he := (hl.ok p.nOut).eig _ (hsub_herm hS C)
  have hres := fixed_residual hC hM he
  set s := start l S C V with hs
  have hr0 : residual S s = 0 := by
    exact sub_eq_zero.2 hres
  have hc0 : correction S s = 0 := by
    ext i b
    simp [correction, hr0]
  have hk : kept S p s 0 = [] := by
    apply List.filter_eq_nil_iff.2
    intro b _
    have h1 : normSq (correction S s) b = 0 := by rw [hc0]; simp [normSq]
    have h2 : 0 < normCut B p s.nb := lt_max_of_lt_left (div_pos hthr (by exact_mod_cast (show 0 < p.nOut from hp.bands)))
    simp only [h1, decide_eq_true_eq, not_and, not_le]
    exact fun _ => h2
  have hn : (dropped S p s 0).n = 0 := by rw [(dropped_spec S p s 0).1, hk]; rfl
  have hkr : ¬ ∃ b : Fin s.nb, 0 ≤ b.val ∧ keRef S s.C b = 0 := by
    rintro ⟨b, -, hb⟩
    have hpos : ∀ b : Fin p.nOut, keRef S (C * ((l _).eig (Cᴴ * (S.H * C))).1) b ≠ 0 := by
      intro b
      have ho := (start_good hl hS (V := S.proj * C) hC rfl).ritz.ortho
      refine keRef_pos hS _ b ho fun i hi => ?_
      by_contra hk
      apply hi
      rw [mul_apply]
      refine Finset.sum_eq_zero fun b' _ => ?_
      by_cases hc : C i b' = 0
      · rw [hc, zero_mul]
      · exact absurd (hke i b' hc) hk
    exact hpos b hb
  have hiter : iteration l S p s 0 = .ok none := by
    unfold iteration
    rw [if_neg (by exact_mod_cast hkr)]
    simp only [hn, if_true]
  have hloop : loop l S p p.nIter s 0 = .ok (s, .empty) := by
    obtain ⟨k, hk⟩ := Nat.exists_eq_succ_of_ne_zero hit.ne'
    rw [hk, loop, hiter]
  refine ⟨⟨C * ((l _).eig (Cᴴ * (S.H * C))).1, V * ((l _).eig (Cᴴ * (S.H * C))).1, diagonal fun b => (((l _).eig (Cᴴ * (S.H * C))).2 b : ℂ), 1, ((l _).eig (Cᴴ * (S.H * C))).2, .empty⟩, ?_, ?_⟩
  · unfold minimize
    rw [if_neg (by omega), ← hs, hloop]
    simp only
    rw [dif_pos (show p.nOut ≤ s.nb from le_rfl)]
    rfl
  · refine ⟨rfl, ?_, ⟨_, rfl⟩, ⟨(((l _).eig (Cᴴ * (S.H * C))).1)ᴴ, ?_⟩⟩
    · exact (Matrix.mul_assoc _ _ _).symm.trans hres
    · rw [Matrix.mul_assoc, he.right, Matrix.mul_one]

/-- **C108 (dependent).** When two of the residuals that expand the subspace are parallel the program exits. -/
theorem C108_dependent (l : ∀ n, Lapack n) (hl : LapackOK l) (S : Sys B P) (hS : S.OK) (p : Params) (s : State B P) (hs : Good S s) (done : ℕ)
    (hke : ∀ b : Fin s.nb, keRef S s.C b ≠ 0) (b c : Fin s.nb) (hbc : b ≠ c) (hb : b ∈ kept S p s done) (hc : c ∈ kept S p s done) (z : ℂ) (hz : ∀ i, correction S s i b = z * correction S s i c)
    (hcut : 0 < normCut B p s.nb) : iteration l S p s done = .error .exit := by
  obtain ⟨d1, d2⟩ := dropped_spec S p s done
  obtain ⟨i, hi, rfl⟩ := List.getElem_of_mem hb
  obtain ⟨j, hj, rfl⟩ := List.getElem_of_mem hc
  have hij : i ≠ j := by
    rintro rfl
    exact hbc rfl
  set X := expansion (dropped S p s done) with hX
  have hnone : orthoMatrix (l _) (bigO S s X) = none := by
    by_contra hne
    obtain ⟨U, hU⟩ := Option.ne_none_iff_exists'.1 hne
    obtain ⟨-, -, -, -, h1, h2⟩ := ortho_some (hl.ok _) hU
    have hi' : i < (dropped S p s done).n := by omega
    have hj' : j < (dropped S p s done).n := by omega
    have hpos : ∀ b ∈ kept S p s done, (Real.sqrt (normSq (correction S s) b) : ℂ) ≠ 0 := by
      intro b hb
      have := (List.mem_filter.1 hb).2
      simp only [decide_eq_true_eq] at this
      exact_mod_cast (Real.sqrt_pos.2 (hcut.trans_le this.2)).ne'
    have hni := hpos _ hb
    have hnj := hpos _ hc
    generalize hA : (Real.sqrt (normSq (correction S s) (kept S p s done)[i]) : ℂ) = α at hni
    generalize hB : (Real.sqrt (normSq (correction S s) (kept S p s done)[j]) : ℂ) = β at hnj
    have hXi : ∀ a, X a ⟨i, hi'⟩ = correction S s a (kept S p s done)[i] * (1 / α) := by
      intro a
      rw [hX, expansion, of_apply, (d2 i hi).1, (d2 i hi).2, ← hA]
      push_cast
      rfl
    have hXj : ∀ a, X a ⟨j, hj'⟩ = correction S s a (kept S p s done)[j] * (1 / β) := by
      intro a
      rw [hX, expansion, of_apply, (d2 j hj).1, (d2 j hj).2, ← hB]
      push_cast
      rfl
    have hQ : cat s.C X *ᵥ (Pi.single (Fin.natAdd s.nb ⟨i, hi'⟩) α - Pi.single (Fin.natAdd s.nb ⟨j, hj'⟩) (z * β)) = 0 := by
      funext a
      rw [Matrix.mulVec_sub, Pi.sub_apply, Matrix.mulVec_single, Matrix.mulVec_single]
      simp only [Pi.smul_apply, MulOpposite.smul_eq_mul_unop, MulOpposite.unop_op, Matrix.col_apply, cat_right, hXi, hXj, hz, Pi.zero_apply]
      field_simp
      ring
    set v : Fin (s.nb + (dropped S p s done).n) → ℂ := Pi.single (Fin.natAdd s.nb ⟨i, hi'⟩) α - Pi.single (Fin.natAdd s.nb ⟨j, hj'⟩) (z * β) with hv
    have hOv : bigO S s X *ᵥ v = 0 := by
      rw [bigO_eq hS hs.ritz, ← Matrix.mulVec_mulVec, ← Matrix.mulVec_mulVec, hQ, Matrix.mulVec_zero, Matrix.mulVec_zero]
    have hy : U⁻¹ *ᵥ v = 0 := by
      rw [← Matrix.one_mulVec (U⁻¹ *ᵥ v), ← h1, Matrix.mulVec_mulVec, Matrix.mul_assoc, Matrix.mul_assoc, Matrix.mul_nonsing_inv _ h2, Matrix.mul_one, ← Matrix.mulVec_mulVec, hOv, Matrix.mulVec_zero]
    have hv0 : v = 0 := by
      rw [← Matrix.one_mulVec v, ← Matrix.mul_nonsing_inv _ h2, ← Matrix.mulVec_mulVec, hy, Matrix.mulVec_zero]
    have h3 := congrFun hv0 (Fin.natAdd s.nb ⟨i, hi'⟩)
    rw [hv, Pi.sub_apply, Pi.single_eq_same, Pi.single_eq_of_ne, sub_zero] at h3
    · exact hni h3
    · intro he
      have := congrArg Fin.val he
      simp at this
      exact hij this
  unfold iteration
  rw [if_neg (by rintro ⟨b, -, h⟩; exact hke b h)]
  simp only
  rw [if_neg (by rw [d1]; exact fun h => by omega), ← hX, hnone]

theorem iteration_ok (l : ∀ n, Lapack n) (hl : LapackOK l) (S : Sys B P) (hS : S.OK) (hO : S.O.PosDef) (p : Params) (s : State B P) (hs : Good S s) (done : ℕ)
    (hke : ∀ b : Fin s.nb, keRef S s.C b ≠ 0) (hne : kept S p s done ≠ []) (hinj : ∀ v, cat s.C (expansion (dropped S p s done)) *ᵥ v = 0 → v = 0) :
    ∃ t, iteration l S p s done = .ok (some t) := by
  obtain ⟨d1, d2⟩ := dropped_spec S p s done
  set X := expansion (dropped S p s done) with hX
  have hpd : (bigO S s X).PosDef := by
    rw [bigO_eq hS hs.ritz]
    have := hO.conjTranspose_mul_mul_same (B := cat s.C X) (fun v w h => by
      rw [← sub_eq_zero]
      apply hinj
      rw [Matrix.mulVec_sub, sub_eq_zero]
      exact h)
    rwa [Matrix.mul_assoc] at this
  have hsome := (hl.ok _).posDef _ hpd
  obtain ⟨L, hL⟩ := Option.isSome_iff_exists.1 hsome
  have hU : orthoMatrix (l _) (bigO S s X) = some (L⁻¹)ᴴ := by
    unfold orthoMatrix
    rw [hL]
    rfl
  unfold iteration
  rw [if_neg (by rintro ⟨b, -, h⟩; exact hke b h)]
  simp only
  rw [if_neg (by rw [d1]; exact fun h => hne (List.length_eq_zero_iff.1 h)), ← hX, hU]
  exact ⟨_, rfl⟩

/-- **C108 (single).** With a single residual the iteration always succeeds, and lowers the sum of the energies. -/
theorem C108_single (l : ∀ n, Lapack n) (hl : LapackOK l) (S : Sys B P) (hS : S.OK) (hO : S.O.PosDef) (p : Params) (s : State B P) (hs : Good S s) (hn : s.nb ≤ nMax p) (done : ℕ)
    (hke : ∀ b : Fin s.nb, keRef S s.C b ≠ 0) (b : Fin s.nb) (hb : kept S p s done = [b]) (hcut : 0 < normCut B p s.nb) :
    ∃ t, iteration l S p s done = .ok (some t) ∧ ∑ b ∈ Finset.range s.nb, t.eig b < ∑ b ∈ Finset.range s.nb, s.eig b := by
  suffices h : ∃ t, iteration l S p s done = .ok (some t) by
    obtain ⟨t, ht⟩ := h
    exact ⟨t, ht, C108_progress l hl S hS p s t done hs hn ht⟩
  refine iteration_ok l hl S hS hO p s hs done hke (by rw [hb]; simp) fun v hv => ?_
  obtain ⟨d1, d2⟩ := dropped_spec S p s done
  have hlen : (dropped S p s done).n = 1 := by rw [d1, hb]; rfl
  have hkeb : 0 < keRef S s.C b := by
    have h1 : 0 ≤ keRef S s.C b := by
      rw [keRef_eq]
      have := Finset.sum_nonneg fun i (_ : i ∈ Finset.univ) => mul_nonneg (hS.kinetic i) (Complex.normSq_nonneg (s.C i b))
      have := mul_nonneg hS.volume.le this
      positivity
    exact lt_of_le_of_ne h1 (Ne.symm (hke b))
  have hnpos : 0 < normSq (correction S s) b := by
    have : b ∈ kept S p s done := by rw [hb]; simp
    have := (List.mem_filter.1 this).2
    simp only [decide_eq_true_eq] at this
    exact hcut.trans_le this.2
  -- the expansion is a positive multiple of the residual, component by component
  set f : B → ℝ := fun a => precondFactor (0.5 * S.kgSq a / keRef S s.C b) * (1 / Real.sqrt (normSq (correction S s) b)) with hf
  have hf0 : ∀ a, 0 < f a := by
    intro a
    have h1 := (C108_preconditioner (0.5 * S.kgSq a / keRef S s.C b) (by have := hS.kinetic a; positivity)).1
    have h2 := Real.sqrt_pos.2 hnpos
    rw [hf]
    positivity
  have hXa : ∀ a, expansion (dropped S p s done) a ⟨0, by omega⟩ = residual S s a b * (f a : ℂ) := by
    intro a
    have h0 : 0 < (kept S p s done).length := by rw [hb]; simp
    have hk0 : (kept S p s done)[0] = b := by simp [hb]
    obtain ⟨e1, e2⟩ := d2 0 h0
    rw [hk0] at e1 e2
    simp only [expansion, of_apply]
    rw [e1, e2, hf]
    simp only [correction, of_apply]
    push_cast
    ring
  -- the residual is orthogonal to the working set
  have horth : s.Cᴴ * residual S s = 0 := by
    unfold residual
    rw [hs.hc, Matrix.mul_sub, hs.ritz.diag, ← Matrix.mul_assoc, hs.ritz.ortho, Matrix.one_mul, sub_self]
  set x := v (Fin.natAdd s.nb ⟨0, by omega⟩) with hx
  have hsplit : ∀ a, (∑ c, s.C a c * v (Fin.castAdd _ c)) + residual S s a b * (f a : ℂ) * x = 0 := by
    intro a
    have h1 := congrFun hv a
    rw [Matrix.mulVec, dotProduct, Fin.sum_univ_add] at h1
    simp only [cat_left, cat_right, Pi.zero_apply] at h1
    rw [← h1]
    congr 1
    rw [Finset.sum_eq_single ⟨0, by omega⟩, hXa]
    · intro j _ hj
      exact absurd (Fin.ext (by have := j.2; omega)) hj
    · simp
  have hx0 : x = 0 := by
    have h1 : ∑ a, conj (residual S s a b) * ((∑ c, s.C a c * v (Fin.castAdd _ c)) + residual S s a b * (f a : ℂ) * x) = 0 :=
      Finset.sum_eq_zero fun a _ => by rw [hsplit a, mul_zero]
    simp only [mul_add, Finset.sum_add_distrib] at h1
    have h2 : ∑ a, conj (residual S s a b) * (∑ c, s.C a c * v (Fin.castAdd _ c)) = 0 := by
      simp only [Finset.mul_sum]
      rw [Finset.sum_comm]
      refine Finset.sum_eq_zero fun c _ => ?_
      have h3 := congrArg conj (congrFun (congrFun horth c) b)
      rw [mul_apply, map_sum] at h3
      simp only [conjTranspose_apply, Complex.star_def, map_mul, Complex.conj_conj, Matrix.zero_apply, map_zero] at h3
      have h4 : ∑ a, conj (residual S s a b) * (s.C a c * v (Fin.castAdd _ c)) = (∑ a, s.C a c * conj (residual S s a b)) * v (Fin.castAdd _ c) := by
        rw [Finset.sum_mul]
        exact Finset.sum_congr rfl fun a _ => by ring
      rw [h4, h3, zero_mul]
    rw [h2, zero_add] at h1
    have h5 : ∑ a, conj (residual S s a b) * (residual S s a b * (f a : ℂ) * x) = ((∑ a, Complex.normSq (residual S s a b) * f a : ℝ) : ℂ) * x := by
      push_cast
      rw [Finset.sum_mul]
      refine Finset.sum_congr rfl fun a _ => ?_
      rw [Complex.normSq_eq_conj_mul_self]
      ring
    rw [h5] at h1
    refine (mul_eq_zero.1 h1).resolve_left ?_
    have hex : ∃ a, residual S s a b ≠ 0 := by
      by_contra hno
      push Not at hno
      have : normSq (correction S s) b = 0 := by
        unfold Davidson.normSq
        simp [correction, hno]
      exact hnpos.ne' this
    obtain ⟨a, ha⟩ := hex
    have : 0 < ∑ a, Complex.normSq (residual S s a b) * f a :=
      Finset.sum_pos' (fun a _ => mul_nonneg (Complex.normSq_nonneg _) (hf0 a).le) ⟨a, Finset.mem_univ _, mul_pos (Complex.normSq_pos.2 ha) (hf0 a)⟩
    exact_mod_cast this.ne'
  have hy : (fun c => v (Fin.castAdd _ c)) = 0 := by
    have h1 : s.C *ᵥ (fun c => v (Fin.castAdd _ c)) = 0 := by
      funext a
      have := hsplit a
      rw [hx0, mul_zero, add_zero] at this
      exact this
    rw [← Matrix.one_mulVec (fun c => v (Fin.castAdd _ c)), ← hs.ritz.ortho, ← Matrix.mulVec_mulVec, ← Matrix.mulVec_mulVec, h1, Matrix.mulVec_zero, Matrix.mulVec_zero]
  funext j
  refine Fin.addCases (fun c => congrFun hy c) (fun c => ?_) j
  obtain rfl : c = ⟨0, by omega⟩ := Fin.ext (by have := c.2; omega)
  exact hx0

/-- **C108 (constant), fails.** When the first wavefunctions have no kinetic energy, the energies become undefined numbers. -/
theorem C108_constant_fails (l : ∀ n, Lapack n) (S : Sys B P) (p : Params) (hp : p.OK) (hsize : 2 * nMax p < p.nbasis) (hit : 0 < p.nIter) (C : Matrix B (Fin p.nOut) ℂ) (V : Matrix P (Fin p.nOut) ℂ)
    (hke : ∀ i b, C i b ≠ 0 → S.kgSq i = 0) : minimize l S p C V = .error .nan := by
  set s := start l S C V with hs
  have h0 : ∃ b : Fin s.nb, 0 ≤ b.val ∧ keRef S s.C b = 0 := by
    refine ⟨⟨0, hp.bands⟩, Nat.zero_le _, ?_⟩
    unfold keRef
    rw [Finset.sum_eq_zero]
    · simp
    · intro i _
      by_cases hi : S.kgSq i = 0
      · simp [hi]
      · have hz : ∀ k (b : Fin k) (W : Matrix (Fin p.nOut) (Fin k) ℂ), (C * W) i b = 0 := by
          intro k b W
          rw [mul_apply]
          refine Finset.sum_eq_zero fun b' _ => ?_
          by_cases hc : C i b' = 0
          · rw [hc, zero_mul]
          · exact absurd (hke i b' hc) hi
        have : s.C i ⟨0, hp.bands⟩ = 0 := hz _ _ _
        rw [this]
        simp
  have hiter : iteration l S p s 0 = .error .nan := by
    unfold iteration
    rw [if_pos (by exact_mod_cast h0)]
  unfold minimize
  rw [if_neg (by omega), ← hs]
  obtain ⟨k, hk⟩ := Nat.exists_eq_succ_of_ne_zero hit.ne'
  rw [hk, loop, hiter]

/-! ### Three free plane waves -/

/-- Free electrons, three plane waves. -/
def free : Sys (Fin 3) (Fin 0) := ⟨diagonal ![1, 2, 3], 1, 0, ![2, 4, 6], 1⟩
/-- One band. -/
def one : Params := ⟨1, 1, 3, 1 / 100, 1, 2, [1], false⟩
/-- The second plane wave. -/
def second : Matrix (Fin 3) (Fin one.nOut) ℂ := Matrix.of fun i _ => if i = 1 then 1 else 0

theorem free_ok : free.OK where
  herm := by
    show (diagonal ![(1 : ℂ), 2, 3]).IsHermitian
    rw [isHermitian_diagonal_iff]
    intro i
    fin_cases i <;> simp [IsSelfAdjoint]
  overlap := PosSemidef.one
  kinetic := by intro i; fin_cases i <;> simp [free]
  volume := one_pos

theorem one_ok : one.OK := ⟨Nat.one_pos, le_rfl, two_pos⟩
theorem one_max : nMax one = 1 := by simp [nMax, one]

theorem second_ortho : secondᴴ * (free.O * second) = 1 := by
  ext i j
  obtain rfl : i = j := Fin.ext (by have h1 := i.2; have h2 := j.2; have : one.nOut = 1 := rfl; omega)
  simp [free, second, mul_apply]

theorem second_solution : free.H * second = free.O * second * ((2 : ℂ) • (1 : Mat one.nOut)) := by
  ext i j
  show (diagonal ![(1 : ℂ), 2, 3] * second) i j = ((1 : Matrix (Fin 3) (Fin 3) ℂ) * second * ((2 : ℂ) • (1 : Mat one.nOut))) i j
  rw [diagonal_mul, Matrix.one_mul, Matrix.mul_smul, Matrix.mul_one]
  fin_cases i <;> simp [second]

theorem second_kinetic (i : Fin 3) (b) (h : second i b ≠ 0) : 0 < free.kgSq i := by
  fin_cases i <;> simp [free]

/-- `C108_solutions`: the hypotheses are met. -/
example (l : ∀ n, Lapack n) (hl : LapackOK l) : ∃ r, minimize l free one second (free.proj * second) = .ok r ∧ r.verdict = .empty := by
  obtain ⟨r, h1, h2, -⟩ := C108_solutions l hl free free_ok one one_ok (by norm_num [one]) (by rw [one_max]; show 2 * 1 < 3; omega) Nat.one_pos second _ second_ortho _ second_solution second_kinetic
  exact ⟨r, h1, h2⟩

example : LapackOK lap := lap_ok

/-- **C108 (lowest), fails.** The solver reports a band as converged that is not the lowest one: starting from the second plane wave of free electrons it stays there. -/
theorem C108_lowest_fails (l : ∀ n, Lapack n) (hl : LapackOK l) :
    ∃ r, minimize l free one second (free.proj * second) = .ok r ∧ r.verdict = .empty ∧ r.eigs ⟨0, Nat.one_pos⟩ = 2 ∧ Exact free (1 : Matrix (Fin 3) (Fin 3) ℂ) ![1, 2, 3] := by
  obtain ⟨r, h1, h2, h3, -, Y, hY⟩ := C108_solutions l hl free free_ok one one_ok (by norm_num [one]) (by rw [one_max]; show 2 * 1 < 3; omega) Nat.one_pos second _ second_ortho _ second_solution second_kinetic
  refine ⟨r, h1, h2, ?_, ⟨⟨?_, ?_, ?_⟩, by simp⟩⟩
  · have e1 := congrFun (congrFun h3 1) ⟨0, Nat.one_pos⟩
    have e2 := congrFun (congrFun hY 1) ⟨0, Nat.one_pos⟩
    have hne : r.C 1 ⟨0, Nat.one_pos⟩ ≠ 0 := by
      intro h0
      rw [mul_apply, Finset.sum_eq_zero] at e2
      · simp [second] at e2
      · intro b _
        obtain rfl : b = ⟨0, Nat.one_pos⟩ := Fin.ext (by have h1 := b.2; have : one.nOut = 1 := rfl; omega)
        rw [h0, zero_mul]
    have e3 : (2 : ℂ) * r.C 1 ⟨0, Nat.one_pos⟩ = r.C 1 ⟨0, Nat.one_pos⟩ * (r.eigs ⟨0, Nat.one_pos⟩ : ℂ) := by
      have h4 : (free.H * r.C) 1 ⟨0, Nat.one_pos⟩ = 2 * r.C 1 ⟨0, Nat.one_pos⟩ := by
        show (diagonal ![(1 : ℂ), 2, 3] * r.C) 1 _ = _
        rw [diagonal_mul]
        rfl
      rw [← h4, e1, mul_diagonal]
      congr 1
      show ((1 : Matrix (Fin 3) (Fin 3) ℂ) * r.C) 1 _ = _
      rw [Matrix.one_mul]
    have e4 : (r.eigs ⟨0, Nat.one_pos⟩ : ℂ) = 2 := by
      rw [mul_comm] at e3
      exact (mul_left_cancel₀ hne e3).symm
    exact_mod_cast e4
  · simp [free]
  · show (1 : Matrix (Fin 3) (Fin 3) ℂ)ᴴ * (diagonal ![(1 : ℂ), 2, 3] * 1) = _
    rw [conjTranspose_one, Matrix.one_mul, Matrix.mul_one]
    congr 1
    funext i
    fin_cases i <;> simp
  · intro i j hij
    fin_cases i <;> fin_cases j <;> simp_all
    all_goals norm_num

/-- Two coupled plane waves and one more. -/
def pair : Sys (Fin 3) (Fin 0) := ⟨Matrix.of ![![0, 1, 0], ![1, 0, 0], ![0, 0, 0]], 1, 0, fun _ => 2, 1⟩
/-- The first plane wave. -/
def first : Matrix (Fin 3) (Fin 1) ℂ := Matrix.of ![![1], ![0], ![0]]
/-- The working set of the first plane wave. -/
abbrev firstState : State (Fin 3) (Fin 0) := ⟨1, first, pair.H * first, pair.proj * first, fun _ => 0⟩

theorem pair_ok : pair.OK where
  herm := by
    ext i j
    fin_cases i <;> fin_cases j <;> simp [pair]
  overlap := PosSemidef.one
  kinetic := by intro i; simp [pair]
  volume := one_pos

theorem pair_first : pair.H * first = Matrix.of ![![0], ![1], ![0]] := by
  ext i j
  fin_cases i <;> fin_cases j <;> simp [pair, first, mul_apply, Fin.sum_univ_succ]

theorem first_ortho : firstᴴ * first = 1 := by
  ext i j
  fin_cases i; fin_cases j
  simp [first, mul_apply, Fin.sum_univ_succ]

theorem first_good : Good pair firstState where
  ritz := ⟨by show firstᴴ * ((1 : Matrix (Fin 3) (Fin 3) ℂ) * first) = 1; rw [Matrix.one_mul, first_ortho], by
    show firstᴴ * (pair.H * first) = diagonal fun _ : Fin 1 => ((0 : ℝ) : ℂ)
    rw [pair_first]
    ext i j
    fin_cases i; fin_cases j
    simp [first, mul_apply, Fin.sum_univ_succ], fun _ _ _ => le_rfl⟩
  hc := rfl
  v := rfl

theorem first_ke (b : Fin 1) : keRef pair first b = 1 := by
  rw [keRef_eq, Fin.sum_univ_three]
  fin_cases b
  simp [first, pair]
  norm_num

theorem first_correction : correction pair firstState = (Matrix.of fun i _ => if i = 1 then ((65 / 81 : ℝ) : ℂ) else 0 : Matrix (Fin 3) (Fin 1) ℂ) := by
  ext i b
  have h2 : correction pair firstState i b = (pair.H * first - pair.O * first * diagonal (fun _ => ((0 : ℝ) : ℂ)) : Matrix (Fin 3) (Fin 1) ℂ) i b * (precondFactor (0.5 * 2 / keRef pair first b) : ℂ) := rfl
  have h3 : precondFactor (0.5 * 2 / 1) = 65 / 81 := by norm_num [precondFactor]
  rw [h2, first_ke, h3, pair_first, of_apply, Matrix.sub_apply, mul_diagonal]
  fin_cases b
  fin_cases i <;> simp

/-- `C108_iteration`, `C108_progress`, `C108_energy`, `C108_single`: the hypotheses are met, and the iteration succeeds. -/
example (l : ∀ n, Lapack n) (hl : LapackOK l) : ∃ t, iteration l pair one firstState 0 = .ok (some t) ∧ t.eig 0 < 0 := by
  have hcut : normCut (Fin 3) one 1 = 1 / 100 := by
    show max ((1 / 100 : ℝ) / ((1 : ℕ) : ℝ)) (1e-15 * ((Fintype.card (Fin 3) : ℕ) : ℝ)) = 1 / 100
    rw [Fintype.card_fin]
    norm_num
  have hns : ∀ b : Fin 1, Davidson.normSq (correction pair firstState) b = (65 / 81) ^ 2 := by
    intro b
    rw [first_correction]
    unfold Davidson.normSq
    rw [Finset.sum_eq_single 1]
    · rw [of_apply, if_pos rfl, ← Complex.normSq_eq_conj_mul_self, Complex.ofReal_re, Complex.normSq_ofReal]
      norm_num
    · intro i _ hi
      rw [of_apply, if_neg hi, mul_zero]
    · simp
  have hk : kept pair one firstState 0 = [(0 : Fin 1)] := by
    unfold kept
    have h1 : List.finRange (1 : ℕ) = [0] := by decide
    show (List.finRange 1).filter _ = _
    rw [h1, List.filter_eq_self]
    intro b _
    simp only [hns, hcut, decide_eq_true_eq]
    exact ⟨Nat.zero_le _, by norm_num⟩
  obtain ⟨t, h1, h2⟩ := C108_single l hl pair pair_ok PosDef.one one firstState first_good (by rw [one_max]) 0 (fun b => by rw [first_ke]; exact one_ne_zero) _ hk (by rw [hcut]; norm_num)
  refine ⟨t, h1, ?_⟩
  rw [show (firstState).nb = 1 from rfl, Finset.sum_range_one, Finset.sum_range_one] at h2
  simpa [State.eig] using h2

/-! ### Two bands coupled to the same plane wave -/

/-- Five plane waves; the first two are coupled to the third. -/
def coupled : Sys (Fin 5) (Fin 0) := ⟨Matrix.of ![![0, 0, 1, 0, 0], ![0, 1, 1, 0, 0], ![1, 1, 0, 0, 0], ![0, 0, 0, 0, 0], ![0, 0, 0, 0, 0]], 1, 0, fun _ => 2, 1⟩
/-- Two bands. -/
def two : Params := ⟨2, 1, 5, 1 / 100, 10, 2, [1, 1], false⟩
/-- The first two plane waves. -/
def firstTwo : Matrix (Fin 5) (Fin 2) ℂ := Matrix.of ![![1, 0], ![0, 1], ![0, 0], ![0, 0], ![0, 0]]

theorem coupled_ok : coupled.OK where
  herm := by
    ext i j
    fin_cases i <;> fin_cases j <;> simp [coupled]
  overlap := PosSemidef.one
  kinetic := by intro i; simp [coupled]
  volume := one_pos

theorem two_ok : two.OK := ⟨Nat.two_pos, le_rfl, two_pos⟩
theorem two_max : nMax two = 2 := by
  show ⌈(1 : ℝ) * ((2 : ℕ) : ℝ)⌉₊ = 2
  rw [one_mul, Nat.ceil_natCast]

theorem firstTwo_ortho : firstTwoᴴ * (coupled.O * firstTwo) = 1 := by
  show firstTwoᴴ * ((1 : Matrix (Fin 5) (Fin 5) ℂ) * firstTwo) = 1
  rw [Matrix.one_mul]
  ext i j
  fin_cases i <;> fin_cases j <;> simp [firstTwo, mul_apply, Fin.sum_univ_succ]

theorem firstTwo_h : coupled.H * firstTwo = Matrix.of ![![0, 0], ![0, 1], ![1, 1], ![0, 0], ![0, 0]] := by
  ext i j
  fin_cases i <;> fin_cases j <;> simp [firstTwo, coupled, mul_apply, Fin.sum_univ_succ]

theorem firstTwo_hsub : firstTwoᴴ * (coupled.H * firstTwo) = Matrix.of ![![0, 0], ![0, 1]] := by
  rw [firstTwo_h]
  ext i j
  fin_cases i <;> fin_cases j <;> simp [firstTwo, mul_apply, Fin.sum_univ_succ]

theorem rotated_ke (W : Mat 2) (hnorm : ∀ b, Complex.normSq (W 0 b) + Complex.normSq (W 1 b) = 1) (b : Fin 2) : keRef coupled (firstTwo * W) b = 1 := by
  have h : firstTwo * W = Matrix.of ![fun b => W 0 b, fun b => W 1 b, 0, 0, 0] := by
    ext i b
    fin_cases i <;> simp [firstTwo, mul_apply]
  rw [keRef_eq, Fin.sum_univ_five, h]
  have := hnorm b
  simp [coupled]
  linarith

theorem rotated_residual (W : Mat 2) (e : Fin 2 → ℝ) (h0 : ∀ b, W 0 b * (e b : ℂ) = 0) (h1 : ∀ b, W 1 b * (e b : ℂ) = W 1 b) (i : Fin 5) (b : Fin 2) :
    (coupled.H * firstTwo * W - coupled.O * (firstTwo * W) * diagonal fun b => (e b : ℂ)) i b = if i = 2 then W 0 b + W 1 b else 0 := by
  have ho : coupled.O = 1 := rfl
  rw [firstTwo_h, ho, Matrix.one_mul, Matrix.sub_apply, mul_diagonal]
  fin_cases i
  · simp [mul_apply, firstTwo, h0]
  · simp [mul_apply, firstTwo, h1]
  · simp [mul_apply, firstTwo]
  · simp [mul_apply, firstTwo]
  · simp [mul_apply, firstTwo]

/-- The working set after the first diagonalization. -/
abbrev rotatedTwo (W : Mat 2) (e : Fin 2 → ℝ) (Vm : Matrix (Fin 0) (Fin 2) ℂ) : State (Fin 5) (Fin 0) := ⟨2, firstTwo * W, coupled.H * firstTwo * W, Vm, e⟩

theorem rotated_correction (W : Mat 2) (e : Fin 2 → ℝ) (Vm : Matrix (Fin 0) (Fin 2) ℂ) (h0 : ∀ b, W 0 b * (e b : ℂ) = 0) (h1 : ∀ b, W 1 b * (e b : ℂ) = W 1 b)
    (hnorm : ∀ b, Complex.normSq (W 0 b) + Complex.normSq (W 1 b) = 1) : correction coupled (rotatedTwo W e Vm) = (Matrix.of fun i b => if i = 2 then (W 0 b + W 1 b) * ((65 / 81 : ℝ) : ℂ) else 0 : Matrix (Fin 5) (Fin 2) ℂ) := by
  ext i b
  have h2 : correction coupled (rotatedTwo W e Vm) i b =
    (coupled.H * firstTwo * W - coupled.O * (firstTwo * W) * diagonal fun b => (e b : ℂ)) i b * (precondFactor (0.5 * 2 / keRef coupled (firstTwo * W) b) : ℂ) := rfl
  have h3 : precondFactor (0.5 * 2 / 1) = 65 / 81 := by norm_num [precondFactor]
  rw [h2, rotated_ke W hnorm, h3, rotated_residual W e h0 h1, of_apply]
  split <;> simp

theorem rotated_exit (l : ∀ n, Lapack n) (hl : LapackOK l) (W : Mat 2) (e : Fin 2 → ℝ) (Vm : Matrix (Fin 0) (Fin 2) ℂ) (hg : Good coupled (rotatedTwo W e Vm)) (h0 : ∀ b, W 0 b * (e b : ℂ) = 0)
    (h1 : ∀ b, W 1 b * (e b : ℂ) = W 1 b) (hnorm : ∀ b, Complex.normSq (W 0 b) + Complex.normSq (W 1 b) = 1) : iteration l coupled two (rotatedTwo W e Vm) 0 = .error .exit := by
  have hprod : ∀ b, W 0 b * W 1 b = 0 := by
    intro b
    rw [← h1 b, mul_left_comm, mul_comm (W 1 b), h0 b, zero_mul]
  have hsum : ∀ b, Complex.normSq (W 0 b + W 1 b) = 1 := by
    intro b
    rcases mul_eq_zero.1 (hprod b) with h | h
    · have := hnorm b
      rw [h] at this ⊢
      simpa using this
    · have := hnorm b
      rw [h] at this ⊢
      simpa using this
  have hcor := rotated_correction W e Vm h0 h1 hnorm
  have hns : ∀ b : Fin 2, Davidson.normSq (correction coupled (rotatedTwo W e Vm)) b = (65 / 81) ^ 2 := by
    intro b
    rw [hcor]
    unfold Davidson.normSq
    rw [Finset.sum_eq_single 2]
    · rw [← Complex.normSq_eq_conj_mul_self, Complex.ofReal_re, of_apply, if_pos rfl, Complex.normSq_mul, hsum b, Complex.normSq_ofReal]
      norm_num
    · intro i _ hi
      rw [of_apply, if_neg hi, mul_zero]
    · simp
  have hcut : normCut (Fin 5) two 2 = 1 / 200 := by
    show max ((1 / 100 : ℝ) / ((2 : ℕ) : ℝ)) (1e-15 * ((Fintype.card (Fin 5) : ℕ) : ℝ)) = 1 / 200
    rw [Fintype.card_fin]
    norm_num
  have hkept : ∀ b : Fin 2, b ∈ kept coupled two (rotatedTwo W e Vm) 0 := by
    intro b
    refine List.mem_filter.2 ⟨List.mem_finRange _, ?_⟩
    simp only [hns, hcut, decide_eq_true_eq]
    exact ⟨Nat.zero_le _, by norm_num⟩
  refine C108_dependent l hl coupled coupled_ok two _ hg 0 (fun b => by rw [rotated_ke W hnorm]; exact one_ne_zero) (0 : Fin 2) (1 : Fin 2) Fin.zero_ne_one (hkept _) (hkept _)
    ((W 0 0 + W 1 0) / (W 0 1 + W 1 1)) (fun i => ?_) (by rw [hcut]; norm_num)
  have hne : W 0 1 + W 1 1 ≠ 0 := by
    intro h
    have := hsum 1
    rw [h] at this
    simp at this
  rw [hcor]
  simp only [of_apply]
  split
  · field_simp
  · simp

theorem minimize_error (l : ∀ n, Lapack n) (S : Sys B P) (p : Params) (C : Matrix B (Fin p.nOut) ℂ) (V : Matrix P (Fin p.nOut) ℂ) {e : Fail} (hsize : 2 * nMax p < p.nbasis)
    (h : loop l S p p.nIter (start l S C V) 0 = .error e) : minimize l S p C V = .error e := by
  unfold minimize
  rw [if_neg (by omega), h]

/-- **C108 (dependent), fails.** For two bands that couple to the same plane wave the program exits in the first iteration, for a Hamiltonian and a working set that are perfectly regular. -/
theorem C108_dependent_fails (l : ∀ n, Lapack n) (hl : LapackOK l) :
    coupled.OK ∧ two.OK ∧ 2 * nMax two < two.nbasis ∧ firstTwoᴴ * (coupled.O * firstTwo) = 1 ∧ (∀ i, 0 < coupled.kgSq i) ∧ minimize l coupled two firstTwo (coupled.proj * firstTwo) = .error .exit := by
  refine ⟨coupled_ok, two_ok, by rw [two_max]; show 2 * 2 < 5; omega, firstTwo_ortho, fun i => by simp [coupled], ?_⟩
  have he := (hl.ok 2).eig _ (hsub_herm coupled_ok firstTwo)
  have hg : Good coupled (start l coupled firstTwo (coupled.proj * firstTwo)) := start_good hl coupled_ok firstTwo_ortho rfl
  have hs : start l coupled firstTwo (coupled.proj * firstTwo) = rotatedTwo ((l 2).eig (firstTwoᴴ * (coupled.H * firstTwo))).1 ((l 2).eig (firstTwoᴴ * (coupled.H * firstTwo))).2
      (coupled.proj * firstTwo * ((l 2).eig (firstTwoᴴ * (coupled.H * firstTwo))).1) := rfl
  rw [hs] at hg
  have hex := rotated_exit l hl _ _ _ hg ?_ ?_ ?_
  · have : loop l coupled two two.nIter (start l coupled firstTwo (coupled.proj * firstTwo)) 0 = .error .exit := by
      have h10 : two.nIter = 9 + 1 := rfl
      rw [h10, loop, hs, hex]
    exact minimize_error _ _ _ _ _ (by rw [two_max]; show 2 * 2 < 5; omega) this
  · intro b
    have := congrFun (congrFun he.eq 0) b
    rw [mul_diagonal] at this
    rw [← this, firstTwo_hsub]
    simp [mul_apply]
  · intro b
    have := congrFun (congrFun he.eq 1) b
    rw [mul_diagonal] at this
    rw [← this, firstTwo_hsub]
    simp [mul_apply]
  · intro b
    have := congrFun (congrFun he.left b) b
    rw [mul_apply, Fin.sum_univ_two, Matrix.one_apply_eq] at this
    simp only [conjTranspose_apply, Complex.star_def, ← Complex.normSq_eq_conj_mul_self] at this
    exact_mod_cast this

/-- `C108_constant_fails`: the hypotheses are met by a constant wavefunction of free electrons in a box, which is the exact lowest solution. -/
example : (∀ i b, (Matrix.of fun i _ => if i = 0 then 1 else 0 : Matrix (Fin 3) (Fin one.nOut) ℂ) i b ≠ 0 → (⟨diagonal ![0, 1, 1], 1, 0, ![0, 2, 2], 1⟩ : Sys (Fin 3) (Fin 0)).kgSq i = 0) ∧
    2 * nMax one < one.nbasis ∧ 0 < one.nIter := by
  refine ⟨fun i b h => ?_, by rw [one_max]; show 2 * 1 < 3; omega, Nat.one_pos⟩
  fin_cases i <;> simp_all

end
end Jdftx.Davidson
