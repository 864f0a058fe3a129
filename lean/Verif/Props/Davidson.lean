import Verif.Lemmas.DavidsonProgress

/-!
# C108: Davidson band solver

Full property: for a fixed Hamiltonian the solver returns the requested number of orthonormal wavefunctions between which the Hamiltonian is diagonal, with their energies; energies never rise and lie
above the exact ones; each iteration makes progress until the residuals are small; exact solutions are kept; and the solver does not fail. The last part is wrong when residuals are linearly
dependent (`C108_dependent_fails`) and for bands without kinetic energy (`C108_constant_fails`), and the bands found need not be the lowest (`C108_lowest_fails`).
-/
set_option linter.unusedSectionVars false
namespace Jdftx.Davidson
open Matrix Jdftx.ElecMin Jdftx.MatFn ComplexConjugate
open scoped ComplexOrder
noncomputable section

variable {B P : Type} [Fintype B]

theorem nMax_le {p : Params} (hp : p.OK) : p.nOut ≤ nMax p := by
  have h : ((p.nOut : ℕ) : ℝ) ≤ (nMax p : ℝ) := by
    refine le_trans ?_ (Nat.le_ceil _)
    nlinarith [hp.ratio, (Nat.cast_nonneg p.nOut : (0 : ℝ) ≤ p.nOut)]
  exact_mod_cast h

/-- **C108 (preconditioner).** The factors of the preconditioner lie between zero and one for all kinetic energies, are one for zero kinetic energy and approach the inverse of twice the kinetic energy
in units of that of the band. -/
theorem C108_preconditioner (x : ℝ) (hx : 0 ≤ x) : 0 < precondFactor x ∧ precondFactor x ≤ 1 ∧ precondFactor 0 = 1 ∧ |precondFactor x * (2 * x) - 1| * (1 + x) ≤ 4 := by
  have hd : 0 < 27 + x * (18 + x * (12 + x * (8 + x * 16))) := by positivity
  refine ⟨by unfold precondFactor; positivity, ?_, by norm_num [precondFactor], ?_⟩
  · unfold precondFactor
    rw [div_le_one hd]
    nlinarith [pow_nonneg hx 4]
  · have e : precondFactor x * (2 * x) - 1 = (-27 + 36 * x + 24 * x ^ 2 + 16 * x ^ 3) / (27 + x * (18 + x * (12 + x * (8 + x * 16)))) := by
      unfold precondFactor
      field_simp
      ring
    rw [e, abs_div, abs_of_pos hd, div_mul_eq_mul_div, div_le_iff₀ hd]
    have h1 : |-27 + 36 * x + 24 * x ^ 2 + 16 * x ^ 3| ≤ 27 + 36 * x + 24 * x ^ 2 + 16 * x ^ 3 := by
      rw [abs_le]
      constructor <;> nlinarith [pow_nonneg hx 2, pow_nonneg hx 3]
    refine (mul_le_mul_of_nonneg_right h1 (by linarith)).trans ?_
    nlinarith [pow_nonneg hx 2, pow_nonneg hx 3, pow_nonneg hx 4, sq_nonneg (x ^ 2 - 1), mul_nonneg hx (sq_nonneg (x - 1)), mul_nonneg (pow_nonneg hx 2) (sq_nonneg (x - 1))]

/-- **C108 (expansion).** The subspace is expanded with the preconditioned residuals of those bands that have not converged and whose residual is not small, each normalized, in their order. -/
theorem C108_expansion (S : Sys B P) (p : Params) (s : State B P) (done : ℕ) :
    (dropped S p s done).n = (kept S p s done).length ∧ ∀ (i : ℕ) (h : i < (kept S p s done).length) (h' : i < (dropped S p s done).n) (a : B),
      expansion (dropped S p s done) a ⟨i, h'⟩ =
        residual S s a (kept S p s done)[i] * (precondFactor (0.5 * S.kgSq a / keRef S s.C (kept S p s done)[i]) : ℂ) / (Real.sqrt (normSq (correction S s) (kept S p s done)[i]) : ℂ) := by
  obtain ⟨h1, h2⟩ := dropped_spec S p s done
  refine ⟨h1, fun i h h' a => ?_⟩
  obtain ⟨h3, h4⟩ := h2 i h
  unfold expansion
  rw [of_apply, h3, h4]
  simp only [correction, of_apply]
  push_cast
  rw [mul_one_div]

/-- **C108 (one iteration).** The new working set is orthonormal, diagonal and sorted, with its Hamiltonian and projections; it has at least as many bands as before, at most the maximum; and no energy is
higher than before. -/
theorem C108_iteration (l : ∀ n, Lapack n) (hl : LapackOK l) (S : Sys B P) (hS : S.OK) (p : Params) (s t : State B P) (done : ℕ) (hs : Good S s) (hn : s.nb ≤ nMax p)
    (h : iteration l S p s done = .ok (some t)) : Good S t ∧ s.nb ≤ t.nb ∧ t.nb ≤ nMax p ∧ ∀ (b : ℕ) (hb : b < s.nb) (hb' : b < t.nb), t.eigs ⟨b, hb'⟩ ≤ s.eigs ⟨b, hb⟩ := by
  obtain ⟨h1, h2, h3, Q, lam, hQ, hw, he⟩ := iteration_some hl hS hs h
  refine ⟨h1, by rw [h3]; omega, by rw [h3]; exact Nat.min_le_left _ _, fun b hb hb' => ?_⟩
  rw [he b hb' (by omega)]
  exact interlace hQ hs.ritz ((within_cat_left _ _).trans hw) b hb _

theorem normCut_pos (p : Params) (nb : ℕ) (hB : Nonempty B) : 0 < normCut B p nb := by
  unfold normCut
  refine lt_max_of_lt_right ?_
  have : (0 : ℝ) < Fintype.card B := by exact_mod_cast Fintype.card_pos
  positivity

theorem keRef_eq (S : Sys B P) {n : ℕ} (C : Matrix B (Fin n) ℂ) (b : Fin n) : keRef S C b = 0.5 * (S.detR * ∑ i, S.kgSq i * Complex.normSq (C i b)) := by
  unfold keRef
  rw [Complex.re_sum, Finset.mul_sum, Finset.mul_sum, Finset.mul_sum]
  refine Finset.sum_congr rfl fun i _ => ?_
  simp only [Complex.mul_re, Complex.mul_im, Complex.conj_re, Complex.conj_im, Complex.ofReal_re, Complex.ofReal_im, Complex.normSq_apply]
  ring

/-- **C108 (progress).** An iteration that expands the subspace lowers the sum of the energies of the working set. -/
theorem C108_progress (l : ∀ n, Lapack n) (hl : LapackOK l) (S : Sys B P) (hS : S.OK) (p : Params) (s t : State B P) (done : ℕ) (hs : Good S s) (hn : s.nb ≤ nMax p)
    (h : iteration l S p s done = .ok (some t)) : ∑ b ∈ Finset.range s.nb, t.eig b < ∑ b ∈ Finset.range s.nb, s.eig b := by
  obtain ⟨h1, h2, h3, Q, lam, hQ, hw, he⟩ := iteration_some hl hS hs h
  obtain ⟨d1, d2⟩ := dropped_spec S p s done
  have hn0 : 0 < (kept S p s done).length := by omega
  obtain ⟨d3, d4⟩ := d2 0 hn0
  set b := (kept S p s done)[0] with hbdef
  have hbm : b ∈ kept S p s done := List.getElem_mem hn0
  have hB : Nonempty B := by
    by_contra hB
    rw [not_nonempty_iff] at hB
    have := congrFun (congrFun hs.ritz.ortho b) b
    simp [mul_apply] at this
  obtain ⟨hdb, hcut⟩ : done ≤ b.val ∧ normCut B p s.nb ≤ normSq (correction S s) b := by simpa [kept] using hbm
  have hnpos : 0 < normSq (correction S s) b := (normCut_pos p s.nb hB).trans_le hcut
  have hke : 0 < keRef S s.C b := by
    have h0 : keRef S s.C b ≠ 0 := by
      intro h0
      unfold iteration at h
      rw [if_pos ⟨b, hdb, h0⟩] at h
      cases h
    have h1 : 0 ≤ keRef S s.C b := by
      rw [keRef_eq]
      have := Finset.sum_nonneg fun i (_ : i ∈ Finset.univ) => mul_nonneg (hS.kinetic i) (Complex.normSq_nonneg (s.C i b))
      have := mul_nonneg hS.volume.le this
      positivity
    exact lt_of_le_of_ne h1 (Ne.symm h0)
  set w : B → ℂ := fun a => expansion (dropped S p s done) a ⟨0, by omega⟩ with hwdef
  have hwQ : VWithin w Q := by
    have := (within_iff _ _).1 hw (Fin.natAdd s.nb ⟨0, by omega⟩)
    simp only [cat_right] at this
    exact this
  have hwa : ∀ a, w a = residual S s a b * ((precondFactor (0.5 * S.kgSq a / keRef S s.C b) * (1 / Real.sqrt (normSq (correction S s) b)) : ℝ) : ℂ) := by
    intro a
    rw [hwdef]
    simp only [expansion, of_apply]
    rw [d3, d4]
    simp only [correction, of_apply]
    push_cast
    ring
  have hres : ∀ a, residual S s a b = (S.H *ᵥ fun r => s.C r b) a - s.eigs b * (S.O *ᵥ fun r => s.C r b) a := by
    intro a
    unfold residual
    rw [hs.hc, Matrix.sub_apply, mul_diagonal, mul_comm]
    rfl
  have hd : (form S.H w (fun a => s.C a b) - s.eigs b * form S.O w (fun a => s.C a b)) =
      ((∑ a, precondFactor (0.5 * S.kgSq a / keRef S s.C b) * (1 / Real.sqrt (normSq (correction S s) b)) * Complex.normSq (residual S s a b) : ℝ) : ℂ) := by
    unfold form
    simp only [dotProduct, Finset.mul_sum]
    rw [← Finset.sum_sub_distrib]
    push_cast
    refine Finset.sum_congr rfl fun a _ => ?_
    have : star w a * (S.H *ᵥ fun a => s.C a b) a - s.eigs b * (star w a * (S.O *ᵥ fun a => s.C a b) a) = conj (w a) * residual S s a b := by
      rw [hres a, Pi.star_apply, Complex.star_def]
      ring
    rw [this, hwa a, map_mul, Complex.conj_ofReal, Complex.normSq_eq_conj_mul_self]
    push_cast
    ring
  have hpos : 0 < (form S.H w (fun a => s.C a b) - s.eigs b * form S.O w (fun a => s.C a b)).re := by
    rw [hd, Complex.ofReal_re]
    have hf : ∀ a, 0 < precondFactor (0.5 * S.kgSq a / keRef S s.C b) * (1 / Real.sqrt (normSq (correction S s) b)) := fun a =>
      mul_pos (C108_preconditioner _ (div_nonneg (mul_nonneg (by norm_num) (hS.kinetic a)) hke.le)).1 (by positivity)
    have hex : ∃ a, residual S s a b ≠ 0 := by
      by_contra hall
      push Not at hall
      have : normSq (correction S s) b = 0 := by
        unfold normSq
        simp [correction, hall]
      linarith
    obtain ⟨a, ha⟩ := hex
    exact Finset.sum_pos' (fun a _ => mul_nonneg (hf a).le (Complex.normSq_nonneg _)) ⟨a, Finset.mem_univ _, mul_pos (hf a) (Complex.normSq_pos.2 ha)⟩
  have hlt := sum_decreases hS hQ hs.ritz ((within_cat_left _ _).trans hw) (by omega) w hwQ b hpos
  have e1 : ∑ b ∈ Finset.range s.nb, t.eig b = ∑ j : Fin s.nb, lam (Fin.castLE (by omega) j) := by
    rw [Finset.sum_range]
    refine Finset.sum_congr rfl fun j _ => ?_
    have hj : j.val < t.nb := by rw [h3]; have := j.2; omega
    unfold State.eig
    rw [dif_pos hj, he j hj (by have := j.2; omega)]
    rfl
  have e2 : ∑ b ∈ Finset.range s.nb, s.eig b = ∑ j, s.eigs j := by
    rw [Finset.sum_range]
    refine Finset.sum_congr rfl fun j _ => ?_
    unfold State.eig
    rw [dif_pos j.2]
  rw [e1, e2]
  exact hlt

/-- Invariant of the loop. -/
theorem loop_spec {l : ∀ n, Lapack n} (hl : LapackOK l) {S : Sys B P} (hS : S.OK) {p : Params} (k : ℕ) (s : State B P) (done : ℕ) (hs : Good S s) (hn : s.nb ≤ nMax p) (r : State B P × Verdict)
    (h : loop l S p k s done = .ok r) : Good S r.1 ∧ s.nb ≤ r.1.nb ∧ r.1.nb ≤ nMax p ∧ ∀ (b : ℕ) (hb : b < s.nb) (hb' : b < r.1.nb), r.1.eigs ⟨b, hb'⟩ ≤ s.eigs ⟨b, hb⟩ := by
  induction k generalizing s done with
  | zero =>
    simp only [loop, Except.ok.injEq] at h
    subst h
    exact ⟨hs, le_rfl, hn, fun _ _ _ => le_rfl⟩
  | succ k ih =>
    unfold loop at h
    split at h
    · cases h
    · simp only [Except.ok.injEq] at h
      subst h
      exact ⟨hs, le_rfl, hn, fun _ _ _ => le_rfl⟩
    · rename_i t ht
      obtain ⟨i1, i2, i3, i4⟩ := C108_iteration l hl S hS p s t done hs hn ht
      simp only at h
      split at h
      · simp only [Except.ok.injEq] at h
        subst h
        exact ⟨i1, i2, i3, i4⟩
      · split at h
        · simp only [Except.ok.injEq] at h
          subst h
          exact ⟨i1, i2, i3, i4⟩
        · obtain ⟨j1, j2, j3, j4⟩ := ih t _ i1 i3 h
          exact ⟨j1, i2.trans j2, j3, fun b hb hb' => (j4 b (hb.trans_le i2) hb').trans (i4 b hb _)⟩

/-- **C108 (result).** The wavefunctions that are left are orthonormal, the Hamiltonian between them is diagonal with the energies that are left, in ascending order, the projections are theirs, and no energy
is higher than the one of the subspace at the start. -/
theorem C108_result (l : ∀ n, Lapack n) (hl : LapackOK l) (S : Sys B P) (hS : S.OK) (p : Params) (hp : p.OK) (C : Matrix B (Fin p.nOut) ℂ) (V : Matrix P (Fin p.nOut) ℂ) (hC : Cᴴ * (S.O * C) = 1)
    (hV : V = S.proj * C) (r : Result B P p.nOut) (h : minimize l S p C V = .ok r) :
    Ritz S r.C r.eigs ∧ r.V = S.proj * r.C ∧ r.Hsub = r.Cᴴ * (S.H * r.C) ∧ r.evecs = 1 ∧
      ∀ (C0 : Matrix B (Fin p.nOut) ℂ) (e0 : Fin p.nOut → ℝ), Ritz S C0 e0 → Within C0 C → ∀ b, r.eigs b ≤ e0 b := by
  have hg := start_good hl hS hC hV
  unfold minimize at h
  split at h
  · cases h
  · split at h
    · cases h
    · rename_i s v hloop
      obtain ⟨h1, h2, h3, h4⟩ := loop_spec hl hS p.nIter _ 0 hg (nMax_le hp) _ hloop
      split at h
      · rename_i hle
        simp only [Except.ok.injEq] at h
        subst h
        have hr := ritz_take h1.ritz hle
        refine ⟨hr, ?_, hr.diag.symm, rfl, fun C0 e0 h0 hw b => ?_⟩
        · show (Matrix.of fun i j => s.V i (Fin.castLE hle j)) = _
          rw [h1.v]
          ext i j
          simp [mul_apply]
        · refine (h4 b b.2 (b.2.trans_le hle)).trans ?_
          have hA : (Cᴴ * (S.H * C)).IsHermitian := by
            unfold Matrix.IsHermitian
            rw [conjTranspose_mul, conjTranspose_mul, conjTranspose_conjTranspose, hS.herm.eq, Matrix.mul_assoc]
          have he := (hl.ok _).eig _ hA
          refine interlace hg.ritz h0 (hw.trans ⟨(((l p.nOut).eig (Cᴴ * (S.H * C))).1)ᴴ, ?_⟩) b b.2 b.2
          have hCW : C = C * ((l p.nOut).eig (Cᴴ * (S.H * C))).1 * (((l p.nOut).eig (Cᴴ * (S.H * C))).1)ᴴ := by
            refine Eq.trans ?_ (Matrix.mul_assoc _ _ _).symm
            refine (Matrix.mul_one C).symm.trans ?_
            exact congrArg (C * ·) he.right.symm
          exact hCW
      · cases h

/-- **C108 (bound).** Each energy is at least the corresponding exact one. -/
theorem C108_bound (l : ∀ n, Lapack n) (hl : LapackOK l) (S : Sys B P) (hS : S.OK) (p : Params) (hp : p.OK) (C : Matrix B (Fin p.nOut) ℂ) (V : Matrix P (Fin p.nOut) ℂ) (hC : Cᴴ * (S.O * C) = 1)
    (hV : V = S.proj * C) (r : Result B P p.nOut) (h : minimize l S p C V = .ok r) {n : ℕ} (Q : Matrix B (Fin n) ℂ) (lam : Fin n → ℝ) (hQ : Exact S Q lam) :
    ∃ hn : p.nOut ≤ n, ∀ b, lam (Fin.castLE hn b) ≤ r.eigs b := by
  obtain ⟨h1, -⟩ := C108_result l hl S hS p hp C V hC hV r h
  have hw : Within r.C Q := by
    classical
    have h2 : Qᴴ * S.O * Q = 1 := (Matrix.mul_assoc _ _ _).trans hQ.ortho
    have h3 : Q * (Qᴴ * S.O) = 1 := (Matrix.mul_eq_one_comm_of_card_eq _ _ _ (by rw [Fintype.card_fin]; exact hQ.complete)).1 h2
    exact ⟨Qᴴ * S.O * r.C, by rw [← Matrix.mul_assoc, h3, Matrix.one_mul]⟩
  obtain ⟨Y, hY⟩ := hw
  have hn := within_card (((within_frame hQ.toRitz hY).1).symm.trans h1.ortho)
  exact ⟨hn, fun b => interlace hQ.toRitz h1 ⟨Y, hY⟩ b b.2 _⟩

/-- **C108 (band energy).** The band energy never rises. -/
theorem C108_energy (l : ∀ n, Lapack n) (hl : LapackOK l) (S : Sys B P) (hS : S.OK) (p : Params) (hp : p.OK) (s t : State B P) (done : ℕ) (hs : Good S s) (hn : s.nb ≤ nMax p) (ho : p.nOut ≤ s.nb)
    (h : iteration l S p s done = .ok (some t)) : eband p t ≤ eband p s := by
  obtain ⟨-, h2, -, h4⟩ := C108_iteration l hl S hS p s t done hs hn h
  unfold eband
  refine mul_le_mul_of_nonneg_left (Finset.sum_le_sum fun b hb => ?_) hp.weight.le
  have hb' := Finset.mem_range.1 hb
  unfold State.eig
  rw [dif_pos (show b < t.nb by omega), dif_pos (show b < s.nb by omega)]
  exact h4 b _ _

theorem takeWhile_all {q : ℕ → Bool} {n m : ℕ} (h : m ≤ ((List.range n).takeWhile q).length) (b : ℕ) (hb : b < m) : q b = true := by
  have hlt : b < ((List.range n).takeWhile q).length := by omega
  have h1 : q (((List.range n).takeWhile q)[b]) = true := List.all_eq_true.1 List.all_takeWhile _ (List.getElem_mem hlt)
  have h2 : ((List.range n).takeWhile q)[b] = b := by
    have hp : (List.range n).takeWhile q <+: List.range n := List.takeWhile_prefix _
    have := hp.getElem hlt
    rw [this]
    simp
  rwa [h2] at h1

/-- Where the number of bands that are done comes from: none, or the change in an iteration. -/
def DoneOK (l : ∀ n, Lapack n) (S : Sys B P) (p : Params) (s : State B P) (done : ℕ) : Prop :=
  done = 0 ∨ ∃ s' d, Good S s' ∧ p.nOut ≤ s'.nb ∧ iteration l S p s' d = .ok (some s) ∧ ∀ b < done, |s.eig b - s'.eig b| ≤ p.thr

theorem nDone_spec (p : Params) (s t : State B P) (b : ℕ) (hb : b < nDone p s t) : |t.eig b - s.eig b| ≤ p.thr := by
  have := takeWhile_all le_rfl b hb
  simpa using this

/-- What the last iteration was like. -/
theorem loop_end {l : ∀ n, Lapack n} (hl : LapackOK l) {S : Sys B P} (hS : S.OK) {p : Params} (k : ℕ) (s : State B P) (done : ℕ) (hs : Good S s) (hn : s.nb ≤ nMax p) (ho : p.nOut ≤ s.nb)
    (hd : DoneOK l S p s done) (r : State B P × Verdict) (h : loop l S p k s done = .ok r) :
    (r.2 = .empty → ∃ d, DoneOK l S p r.1 d ∧ kept S p r.1 d = []) ∧
      (r.2 = .energy → ∃ s' d, Good S s' ∧ p.nOut ≤ s'.nb ∧ iteration l S p s' d = .ok (some r.1) ∧ eband p s' - p.thr < eband p r.1 ∧ eband p r.1 < eband p s') ∧
      (r.2 = .bands → ∃ s' d, Good S s' ∧ p.nOut ≤ s'.nb ∧ iteration l S p s' d = .ok (some r.1) ∧ ∀ b < nEigsMin p, |r.1.eig b - s'.eig b| ≤ p.thr) := by
  induction k generalizing s done with
  | zero =>
    simp only [loop, Except.ok.injEq] at h
    subst h
    simp
  | succ k ih =>
    unfold loop at h
    split at h
    · cases h
    · rename_i hit
      simp only [Except.ok.injEq] at h
      subst h
      refine ⟨fun _ => ⟨done, hd, ?_⟩, by simp, by simp⟩
      have hc : (dropped S p s done).n = 0 := by
        unfold iteration at hit
        split at hit
        · cases hit
        · simp only at hit
          split at hit
          · assumption
          · split at hit
            · cases hit
            · simp at hit
      rw [(dropped_spec S p s done).1] at hc
      exact List.length_eq_zero_iff.1 hc
    · rename_i t ht
      obtain ⟨i1, i2, i3, i4⟩ := C108_iteration l hl S hS p s t done hs hn ht
      simp only at h
      split at h
      · rename_i hE
        simp only [Except.ok.injEq] at h
        subst h
        refine ⟨by simp, fun _ => ⟨s, done, hs, ho, ht, ?_, ?_⟩, by simp⟩
        · have := (abs_lt.1 hE.2).1
          show eband p s - p.thr < eband p t
          linarith
        · show eband p t < eband p s
          linarith [hE.1]
      · split at h
        · rename_i hN
          simp only [Except.ok.injEq] at h
          subst h
          exact ⟨by simp, by simp, fun _ => ⟨s, done, hs, ho, ht, fun b hb => nDone_spec p s t b (hb.trans_le hN)⟩⟩
        · exact ih t _ i1 i3 (ho.trans i2) (Or.inr ⟨s, done, hs, ho, ht, nDone_spec p s t⟩) h

/-- **C108 (convergence).** When the solver ends because the energies converged, they changed by no more than the threshold in the last iteration: the band energy, or each of the bands that have to
converge. When it ends because nothing is left to expand the subspace with, each band either has a small preconditioned residual, or its energy and those below changed by no more than the threshold in the
last iteration. -/
theorem C108_convergence (l : ∀ n, Lapack n) (hl : LapackOK l) (S : Sys B P) (hS : S.OK) (p : Params) (hp : p.OK) (C : Matrix B (Fin p.nOut) ℂ) (V : Matrix P (Fin p.nOut) ℂ)
    (hC : Cᴴ * (S.O * C) = 1) (hV : V = S.proj * C) (r : Result B P p.nOut) (h : minimize l S p C V = .ok r) :
    ∃ t : State B P, Good S t ∧ ∃ hn : p.nOut ≤ t.nb, (∀ b, r.eigs b = t.eigs (Fin.castLE hn b) ∧ ∀ i, r.C i b = t.C i (Fin.castLE hn b)) ∧
      (r.verdict = .empty → (∀ b : Fin t.nb, normSq (correction S t) b < normCut B p t.nb) ∨
        ∃ s d, Good S s ∧ p.nOut ≤ s.nb ∧ iteration l S p s d = .ok (some t) ∧ ∀ b : Fin t.nb, normSq (correction S t) b < normCut B p t.nb ∨ ∀ c : ℕ, c ≤ b.val → |t.eig c - s.eig c| ≤ p.thr) ∧
      (r.verdict = .energy → ∃ s d, Good S s ∧ p.nOut ≤ s.nb ∧ iteration l S p s d = .ok (some t) ∧ eband p s - p.thr < eband p t ∧ eband p t < eband p s) ∧
      (r.verdict = .bands → ∃ s d, Good S s ∧ p.nOut ≤ s.nb ∧ iteration l S p s d = .ok (some t) ∧ ∀ b < nEigsMin p, |t.eig b - s.eig b| ≤ p.thr) := by
  have hg := start_good hl hS hC hV
  unfold minimize at h
  split at h
  · cases h
  · split at h
    · cases h
    · rename_i s v hloop
      obtain ⟨h1, h2, h3, h4⟩ := loop_spec hl hS p.nIter _ 0 hg (nMax_le hp) _ hloop
      obtain ⟨e1, e2, e3⟩ := loop_end hl hS p.nIter _ 0 hg (nMax_le hp) le_rfl (Or.inl rfl) _ hloop
      split at h
      · rename_i hle
        simp only [Except.ok.injEq] at h
        subst h
        refine ⟨s, h1, hle, fun b => ⟨rfl, fun i => rfl⟩, fun hv => ?_, e2, e3⟩
        obtain ⟨d, hd, hk⟩ := e1 hv
        have hsmall : ∀ b : Fin s.nb, d ≤ b.val → normSq (correction S s) b < normCut B p s.nb := by
          intro b hb
          have := List.filter_eq_nil_iff.1 hk b (List.mem_finRange b)
          simp only [decide_eq_true_eq, not_and, not_le] at this
          exact this hb
        rcases hd with rfl | ⟨s', d', g1, g2, g3, g4⟩
        · exact Or.inl fun b => hsmall b (Nat.zero_le _)
        · refine Or.inr ⟨s', d', g1, g2, g3, fun b => ?_⟩
          by_cases hb : d ≤ b.val
          · exact Or.inl (hsmall b hb)
          · exact Or.inr fun c hc => g4 c (by omega)
      · cases h

/-- **C108 (bands to converge).** In the cycles of the self-consistent field method only occupied bands have to converge, otherwise all. -/
theorem C108_targets (p : Params) : (p.isInner = false → nEigsMin p = p.nOut) ∧ (p.isInner = true → nEigsMin p = (p.F.filter fun f => decide (1e-6 < f)).length) := by
  refine ⟨fun h => by simp [nEigsMin, h], fun h => by simp [nEigsMin, h]⟩

/-- **C108 (working set).** The working set is refused exactly when twice its largest size reaches the number of plane waves; this size is the number of bands times the ratio, rounded up. -/
theorem C108_size (l : ∀ n, Lapack n) (S : Sys B P) (p : Params) (hp : p.OK) (C : Matrix B (Fin p.nOut) ℂ) (V : Matrix P (Fin p.nOut) ℂ) :
    (p.ratio * p.nOut ≤ nMax p ∧ (nMax p : ℝ) < p.ratio * p.nOut + 1) ∧ (p.nbasis ≤ 2 * nMax p → minimize l S p C V = .error .die) ∧
      (2 * nMax p < p.nbasis → minimize l S p C V ≠ .error .die) := by
  refine ⟨⟨Nat.le_ceil _, Nat.ceil_lt_add_one (mul_nonneg (by linarith [hp.ratio]) (Nat.cast_nonneg _))⟩, fun h => ?_, fun h h' => ?_⟩
  · unfold minimize
    rw [if_pos h]
  · have hit : ∀ s d, iteration l S p s d ≠ .error .die := by
      intro s d hh
      unfold iteration at hh
      split at hh
      · cases hh
      · simp only at hh
        split at hh
        · cases hh
        · split at hh <;> cases hh
    have hlo : ∀ k s d, loop l S p k s d ≠ .error .die := by
      intro k
      induction k with
      | zero => intro s d hh; simp [loop] at hh
      | succ k ih =>
        intro s d hh
        unfold loop at hh
        split at hh
        · rename_i e he
          cases hh
          exact hit _ _ he
        · cases hh
        · simp only at hh
          split at hh
          · cases hh
          · split at hh
            · cases hh
            · exact ih _ _ hh
    unfold minimize at h'
    rw [if_neg (by omega)] at h'
    split at h'
    · rename_i e he
      cases h'
      exact hlo _ _ _ he
    · split at h' <;> cases h'

end
end Jdftx.Davidson
