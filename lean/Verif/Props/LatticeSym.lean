import Verif.Props.Lattice
import Verif.Lemmas.LatticeMin
import Mathlib.LinearAlgebra.Matrix.Nondegenerate
import Mathlib.Tactic.NormNum

/-!
# C27: the search box covers every symmetry of the lattice
-/
namespace Jdftx.Lat
open Jdftx.M3

theorem nrm2_sq (m : Mat ℝ) : nrm2 (RingHom.id ℝ) m ^ 2 = gram m 0 0 + gram m 1 1 + gram m 2 2 := by
  rw [nrm2_eq, Real.sq_sqrt (Finset.sum_nonneg fun a _ => Finset.sum_nonneg fun b _ => sq_nonneg _)]
  simp only [Fin.sum_univ_three, RingHom.id_apply, gram, dot, column, vec]
  ring

theorem nrm2_addCols (R : Mat ℝ) (k : Fin 3) (i j : Int) (d : Fin 3 → Int) (h0 : d k = 1) (h1 : d (k + 1) = i) (h2 : d (k + 2) = j) :
    nrm2 (RingHom.id ℝ) (addCols R k i j) ^ 2 = nrm2 (RingHom.id ℝ) R ^ 2 - gram R k k + qlen R d := by
  rw [nrm2_sq, nrm2_sq]
  subst h1 h2
  fin_cases k
  · have h0' : d 0 = 1 := h0
    simp [gram, qlen, dot, column, vec, addCols, mulMV, h0']
    ring
  · have h0' : d 1 = 1 := h0
    simp [gram, qlen, dot, column, vec, addCols, mulMV, h0']
    ring
  · have h0' : d 2 = 1 := h0
    simp [gram, qlen, dot, column, vec, addCols, mulMV, h0']
    ring

theorem qlen_neg (R : Mat ℝ) (d : Fin 3 → Int) : qlen R (fun i => -d i) = qlen R d := by
  simp only [qlen, dot, mulMV]; push_cast; ring

theorem near_reduced (R : Mat ℝ) (thr : ℝ) (hthr : 0 < thr)
    (h : ∀ (k : Fin 3) (i j : Int), -1 ≤ i ∧ i ≤ 1 → -1 ≤ j ∧ j ≤ 1 → nrm2 (RingHom.id ℝ) R - thr ≤ nrm2 (RingHom.id ℝ) (addCols R k i j)) :
    NearReduced R (2 * thr * nrm2 (RingHom.id ℝ) R) := by
  have key : ∀ d : Fin 3 → Int, (∀ i, -1 ≤ d i ∧ d i ≤ 1) → ∀ k, d k = 1 → gram R k k - 2 * thr * nrm2 (RingHom.id ℝ) R ≤ qlen R d := by
    intro d hd k hk
    have h1 := h k (d (k + 1)) (d (k + 2)) (hd _) (hd _)
    have h2 := nrm2_addCols R k _ _ d hk rfl rfl
    have n1 := nrm2_nonneg (RingHom.id ℝ) R
    have n2 := nrm2_nonneg (RingHom.id ℝ) (addCols R k (d (k + 1)) (d (k + 2)))
    by_cases hc : thr ≤ nrm2 (RingHom.id ℝ) R
    · nlinarith
    · push Not at hc
      nlinarith
  intro d hd k hk
  have hk' : d k = 1 ∨ d k = -1 := by have := hd k; omega
  rcases hk' with hk' | hk'
  · exact key d hd k hk'
  · rw [← qlen_neg]
    exact key (fun i => -d i) (fun i => by have := hd i; constructor <;> omega) k (by simp [hk'])

/-- **C27, the search box.** Unless the lattice has vectors of squared length below `18 * threshold * |R|` (degenerate cells), every exact symmetry of
the lattice has entries in -1..1 on the reduced vectors: the claim in the comment of LatticeUtils.cpp:82. -/
theorem C27_box (thr : ℝ) (hthr : 0 < thr) (R : Mat ℝ) (hR : det R ≠ 0) (fuel : Nat) (hf : nrm2 (RingHom.id ℝ) R < fuel * thr) (lam : ℝ)
    (hlam : 18 * thr * nrm2 (RingHom.id ℝ) R < lam) (hmin : ∀ v, InLattice R v → v ≠ 0 → lam ≤ dot v v) :
    ∃ s, reduceLatticeVectors thr fuel R = .ok s ∧ ∀ M, Isometry R M → ∀ a b, -1 ≤ mulMM (mulMM s.tInv M) s.t a b ∧ mulMM (mulMM s.tInv M) s.t a b ≤ 1 := by
  obtain ⟨s, e, h1, h2, h3, h4, h5, h6, h7, h8⟩ := C26_reduceMatrix (RingHom.id ℝ) thr hthr R fuel hf
  refine ⟨s, e, fun M hM => ?_⟩
  have hch := isometry_metricChange s R h1 h3 M hM
  have hsn := nrm2_nonneg (RingHom.id ℝ) s.R
  have hdetS : det s.R ≠ 0 := by rw [h6]; exact hR
  refine entries_bound s.R (2 * thr * nrm2 (RingHom.id ℝ) s.R) lam (by positivity) (by nlinarith) (near_reduced s.R thr hthr h8) ?_ _ ?_ ?_
  · intro d hd
    refine hmin _ ((h5 _).1 ⟨d, rfl⟩) ?_
    intro hz
    apply hd
    have hdet : (Matrix.of s.R).det ≠ 0 := by rw [← det_eq]; exact hdetS
    have hz' : (Matrix.of s.R).mulVec (fun i => (d i : ℝ)) = 0 := by rw [← mulMV_eq]; exact hz
    have := Matrix.eq_zero_of_mulVec_eq_zero hdet hz'
    funext i
    have hi := congrFun this i
    simpa using hi
  · obtain ⟨n, hn, _⟩ := isometry_inv R hR (fun _ => true) M hM (fun _ _ _ => rfl)
    have hMn := congrArg (fun m => (Matrix.of m).det) hn
    have htt := congrArg (fun m => (Matrix.of m).det) h4
    simp only [mulMM_eq, Matrix.det_mul, diag_one, Matrix.det_one] at hMn htt
    rw [mulMM_eq, mulMM_eq, Matrix.det_mul, Matrix.det_mul]
    intro hz
    rcases mul_eq_zero.1 hz with hz | hz
    · rcases mul_eq_zero.1 hz with hz | hz
      · rw [hz, zero_mul] at htt; exact zero_ne_one htt
      · rw [hz, zero_mul] at hMn; exact zero_ne_one hMn
    · rw [hz, mul_zero] at htt; exact zero_ne_one htt
  · intro j
    unfold metricChange at hch
    have hsum := (Real.sqrt_eq_zero (Finset.sum_nonneg fun a _ => Finset.sum_nonneg fun b _ => sq_nonneg _)).1 hch
    have hj := (Finset.sum_eq_zero_iff_of_nonneg (fun a _ => Finset.sum_nonneg fun b _ => sq_nonneg _)).1 hsum j (Finset.mem_univ j)
    have hjj := (Finset.sum_eq_zero_iff_of_nonneg (fun b _ => sq_nonneg _)).1 hj j (Finset.mem_univ j)
    have hd := pow_eq_zero_iff (two_ne_zero) |>.1 hjj
    have : gram s.R j j = dot (column (mulMM s.R (castMat (mulMM (mulMM s.tInv M) s.t))) j) (column (mulMM s.R (castMat (mulMM (mulMM s.tInv M) s.t))) j) := by
      unfold gram; linarith
    rw [this]
    generalize mulMM (mulMM s.tInv M) s.t = m
    simp [qlen, dot, mulMV, column, vec, mulMM, castMat]

/-- **C27.** For every lattice without very short vectors: the search ends; every exact symmetry of the lattice that does not mix truncated with periodic
directions is reported, in particular the identity; every reported one respects the truncated directions and keeps the inner products within the
threshold; and if only exact ones are within the threshold, the reported list is the full group: closed under products, with inverses. -/
theorem C27_symmetries (thr : ℝ) (hthr : 0 < thr) (R : Mat ℝ) (hR : det R ≠ 0) (tr : Fin 3 → Bool) (fuel : Nat) (hf : nrm2 (RingHom.id ℝ) R < fuel * thr)
    (lam : ℝ) (hlam : 18 * thr * nrm2 (RingHom.id ℝ) R < lam) (hmin : ∀ v, InLattice R v → v ≠ 0 → lam ≤ dot v v) :
    ∃ s syms, reduceLatticeVectors thr fuel R = .ok s ∧ getSymmetries thr fuel R tr = .ok syms ∧
      (∀ M, Isometry R M → RespectsTruncation tr M → M ∈ syms) ∧ diag 1 1 1 ∈ syms ∧
      (∀ M ∈ syms, metricChange s.R (mulMM (mulMM s.tInv M) s.t) < thr * metricSize s.R ∧ RespectsTruncation tr M) ∧
      ((∀ M ∈ syms, Isometry R M) → (∀ M ∈ syms, ∀ N ∈ syms, mulMM M N ∈ syms) ∧
        ∀ M ∈ syms, ∃ N ∈ syms, mulMM M N = diag 1 1 1 ∧ mulMM N M = diag 1 1 1) := by
  obtain ⟨s, e, hb⟩ := C27_box thr hthr R hR fuel hf lam hlam hmin
  obtain ⟨s1, syms, e1, e2, a1, a2, a3⟩ := C27_symmetries_partial thr hthr R hR tr fuel hf
  obtain ⟨s2, syms2, b1, b2, b3⟩ := C27_group thr hthr R hR tr fuel hf
  have hs1 : s1 = s := by rw [e] at e1; injection e1 with h; exact h.symm
  have hs2 : s2 = s := by rw [e] at b1; injection b1 with h; exact h.symm
  have hy : syms2 = syms := by rw [e2] at b2; injection b2 with h; exact h.symm
  subst hs1 hs2 hy
  refine ⟨_, _, e, e2, fun M hM ht => a2 M hM ht (hb M hM), a3, a1, fun hex => ?_⟩
  have := b3 (fun M hM _ => hb M hM) hex
  exact ⟨this.2.2.1, this.2.2.2⟩

/-! ### Lattices close to symmetric ones -/

/-- Edges 1, 1.00005 and 1.0001. -/
noncomputable def almostCubic : Mat ℝ := diag 1 (20001 / 20000) (20002 / 20000)

/-- Exchange of the first two axes, and of the last two. -/
def swap01 : Mat Int := fun a b => vec (vec 0 1 0 b) (vec 1 0 0 b) (vec 0 0 1 b) a
def swap12 : Mat Int := fun a b => vec (vec 1 0 0 b) (vec 0 0 1 b) (vec 0 1 0 b) a

theorem almostCubic_reduce (fuel : Nat) : reduceLatticeVectors (1 / 10000) (fuel + 1) almostCubic = .ok ⟨almostCubic, diag 1 1 1, diag 1 1 1⟩ := by
  unfold reduceLatticeVectors reduceMatrix reduceLoop
  rw [sweep_id]
  · rfl
  · intro p hp
    rw [mul_elem]
    obtain ⟨k, i, j⟩ := p
    simp only
    have h1 : nrm2 (RingHom.id ℝ) almostCubic ≤ nrm2 (RingHom.id ℝ) (addCols almostCubic k i j) := by
      rw [nrm2_eq, nrm2_eq]
      refine Real.sqrt_le_sqrt ?_
      simp only [Fin.sum_univ_three, RingHom.id_apply]
      have qi := sq_nonneg (i : ℝ)
      have qj := sq_nonneg (j : ℝ)
      fin_cases k <;> simp [addCols, almostCubic, diag, vec] <;> nlinarith
    linarith

theorem almostCubic_change (m : Mat Int) : metricChange almostCubic m = Real.sqrt (∑ a, ∑ b, ((diag 1 ((20001 / 20000) ^ 2) ((20002 / 20000) ^ 2) : Mat ℝ) a b
    - ((m 0 a : ℝ) * m 0 b + (20001 / 20000 : ℝ) ^ 2 * (m 1 a * m 1 b) + (20002 / 20000 : ℝ) ^ 2 * (m 2 a * m 2 b))) ^ 2) := by
  unfold metricChange
  congr 1
  refine Finset.sum_congr rfl fun a _ => Finset.sum_congr rfl fun b _ => ?_
  congr 1
  fin_cases a <;> fin_cases b <;> simp [dot, column, vec, mulMM, castMat, almostCubic, diag] <;> ring

/-- For lattices that are symmetric only within the threshold, the reported list need not be closed under composition: with edges 1, 1.00005 and 1.0001
and the threshold 1e-4 of the code, the exchanges of neighbouring axes are reported, and their product is not. -/
theorem C27_closure_violation (fuel : Nat) (tr : Fin 3 → Bool) (htr : tr = fun _ => false) :
    ∃ syms, getSymmetries (1 / 10000) (fuel + 1) almostCubic tr = .ok syms ∧ swap01 ∈ syms ∧ swap12 ∈ syms ∧ mulMM (mulMM swap01 swap12) swap01 ∉ syms := by
  have hred := almostCubic_reduce fuel
  have hdiag : ∀ m : Mat Int, mulMM (mulMM (diag 1 1 1) m) (diag 1 1 1) = m := by
    intro m; apply Matrix.of.injective; rw [mulMM_eq, mulMM_eq, diag_one]; simp
  have hsize : metricSize almostCubic = Real.sqrt (1 + (20001 / 20000) ^ 4 + (20002 / 20000) ^ 4) := by
    unfold metricSize
    congr 1
    simp only [Fin.sum_univ_three]
    simp [dot, column, vec, almostCubic, diag]
    ring
  have hlo : 1.7 < metricSize almostCubic := by
    rw [hsize]; exact Real.lt_sqrt_of_sq_lt (by norm_num)
  have hhi : metricSize almostCubic < 1.74 := by
    rw [hsize, Real.sqrt_lt' (by norm_num)]; norm_num
  refine ⟨_, by unfold getSymmetries; rw [hred], ?_, ?_, ?_⟩
  · rw [List.mem_filterMap]
    refine ⟨swap01, (mem_candidates _).2 (by decide), ?_⟩
    rw [if_pos, if_neg]
    · simp only [hdiag]
    · rintro ⟨i, j, _, h⟩; rw [htr] at h; exact h rfl
    · rw [keepsMetric_iff, almostCubic_change]
      refine lt_of_lt_of_le (b := (1 / 10000) * 1.7) ?_ (by linarith)
      rw [Real.sqrt_lt' (by norm_num)]
      simp only [Fin.sum_univ_three]
      simp [swap01, diag, vec]
      norm_num
  · rw [List.mem_filterMap]
    refine ⟨swap12, (mem_candidates _).2 (by decide), ?_⟩
    rw [if_pos, if_neg]
    · simp only [hdiag]
    · rintro ⟨i, j, _, h⟩; rw [htr] at h; exact h rfl
    · rw [keepsMetric_iff, almostCubic_change]
      refine lt_of_lt_of_le (b := (1 / 10000) * 1.7) ?_ (by linarith)
      rw [Real.sqrt_lt' (by norm_num)]
      simp only [Fin.sum_univ_three]
      simp [swap12, diag, vec]
      norm_num
  · intro hmem
    rw [List.mem_filterMap] at hmem
    obtain ⟨m, _, hm⟩ := hmem
    simp only [hdiag] at hm
    split at hm
    · rename_i hk
      split at hm
      · exact absurd hm (by simp)
      · have hme : m = mulMM (mulMM swap01 swap12) swap01 := by injection hm
        rw [hme, keepsMetric_iff, almostCubic_change] at hk
        have : (1 / 10000) * 1.74 ≤ Real.sqrt (∑ a, ∑ b, ((diag 1 ((20001 / 20000) ^ 2) ((20002 / 20000) ^ 2) : Mat ℝ) a b
            - (((mulMM (mulMM swap01 swap12) swap01) 0 a : ℝ) * (mulMM (mulMM swap01 swap12) swap01) 0 b + (20001 / 20000 : ℝ) ^ 2 * ((mulMM (mulMM swap01 swap12) swap01) 1 a * (mulMM (mulMM swap01 swap12) swap01) 1 b)
              + (20002 / 20000 : ℝ) ^ 2 * ((mulMM (mulMM swap01 swap12) swap01) 2 a * (mulMM (mulMM swap01 swap12) swap01) 2 b))) ^ 2) := by
          refine Real.le_sqrt_of_sq_le ?_
          simp only [Fin.sum_univ_three]
          simp [mulMM, swap01, swap12, diag, vec]
          norm_num
        linarith
    · exact absurd hm (by simp)

/-- The assumptions of `C27_symmetries` hold for the cubic lattice with the threshold of the code. -/
example (tr : Fin 3 → Bool) : ∃ s syms, reduceLatticeVectors (1 / 10000) 100000 (diag 1 1 1) = .ok s ∧ getSymmetries (1 / 10000) 100000 (diag 1 1 1) tr = .ok syms ∧
    (∀ M, Isometry (diag 1 1 1) M → RespectsTruncation tr M → M ∈ syms) := by
  have n1 : nrm2 (RingHom.id ℝ) (diag 1 1 1 : Mat ℝ) ≤ 2 := by
    unfold nrm2
    have : nrm2sq (diag 1 1 1 : Mat ℝ) = 3 := by
      simp [nrm2sq, trace, mulMM, transpose, diag, vec]; norm_num
    rw [this]
    refine (Real.sqrt_le_left (by norm_num)).2 ?_
    norm_num
  obtain ⟨s, syms, a, b, c, _⟩ := C27_symmetries (1 / 10000) (by norm_num) (diag 1 1 1) (by simp [det, box, dot, cross, row, vec, diag]) tr 100000
    (lt_of_le_of_lt n1 (by norm_num)) 1 (by linarith) (by
      rintro v ⟨n, rfl⟩ hv
      have e : mulMV (diag 1 1 1 : Mat ℝ) (fun i => (n i : ℝ)) = fun i => (n i : ℝ) := by
        rw [mulMV_eq, diag_one]; simp
      rw [e] at hv ⊢
      have hn : n ≠ 0 := fun h => hv (by rw [h]; funext i; simp)
      have : 1 ≤ n 0 * n 0 + n 1 * n 1 + n 2 * n 2 := by
        by_contra hlt
        apply hn
        have q0 := mul_self_nonneg (n 0)
        have q1 := mul_self_nonneg (n 1)
        have q2 := mul_self_nonneg (n 2)
        funext i
        match i with
        | 0 => exact mul_self_eq_zero.1 (by omega)
        | 1 => exact mul_self_eq_zero.1 (by omega)
        | 2 => exact mul_self_eq_zero.1 (by omega)
      simp only [dot]
      exact_mod_cast this)
  exact ⟨s, syms, a, b, c⟩

end Jdftx.Lat
