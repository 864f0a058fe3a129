import Verif.Model.WignerSeitz
import Verif.Spec.WignerSeitz
import Verif.Lemmas.Mat3
import Mathlib.Tactic.Linarith
import Mathlib.Tactic.Positivity
import Mathlib.Tactic.FieldSimp
import Mathlib.Tactic.LinearCombination
import Mathlib.Algebra.Order.Floor.Ring
import Mathlib.LinearAlgebra.Matrix.Nondegenerate

/-! # Lemmas for C28, C29 -/
namespace Jdftx.WS
open Jdftx.M3

/-- Inner product of lattice-coordinate vectors. -/
def ip (R : Mat ℝ) (x y : V3 ℝ) : ℝ := dot (mulMV R x) (mulMV R y)

theorem lenSq_ip (R : Mat ℝ) (x : V3 ℝ) : lenSq R x = ip R x x := rfl

theorem metric_lenSq (R : Mat ℝ) (x : V3 ℝ) : metricLengthSq (RTR R) x = lenSq R x := by
  simp only [metricLengthSq, RTR, lenSq, dot, mulMV, mulMM, transpose]; ring

theorem rtr_dot (R : Mat ℝ) (x y : V3 ℝ) : dot (mulMV (RTR R) x) y = ip R x y := by
  simp only [RTR, ip, dot, mulMV, mulMM, transpose]; ring

theorem lenSq_sub (R : Mat ℝ) (x a : V3 ℝ) (n : ℝ) :
    lenSq R (fun i => x i - n * a i) = lenSq R x - 2 * n * ip R a x + n ^ 2 * lenSq R a := by
  simp only [lenSq, ip, dot, mulMV]; ring

theorem lenSq_nonneg (R : Mat ℝ) (x : V3 ℝ) : 0 ≤ lenSq R x := by
  unfold lenSq dot; nlinarith [sq_nonneg (mulMV R x 0), sq_nonneg (mulMV R x 1), sq_nonneg (mulMV R x 2)]

theorem lenSq_pos (R : Mat ℝ) (hR : det R ≠ 0) (x : V3 ℝ) (hx : x ≠ 0) : 0 < lenSq R x := by
  refine lt_of_le_of_ne (lenSq_nonneg R x) fun h => hx ?_
  have h' : mulMV R x = 0 := by
    unfold lenSq dot at h
    funext i
    have q0 := mul_self_nonneg (mulMV R x 0)
    have q1 := mul_self_nonneg (mulMV R x 1)
    have q2 := mul_self_nonneg (mulMV R x 2)
    fin_cases i
    · exact mul_self_eq_zero.1 (show mulMV R x 0 * mulMV R x 0 = 0 by linarith)
    · exact mul_self_eq_zero.1 (show mulMV R x 1 * mulMV R x 1 = 0 by linarith)
    · exact mul_self_eq_zero.1 (show mulMV R x 2 * mulMV R x 2 = 0 by linarith)
  rw [mulMV_eq] at h'
  rw [det_eq] at hR
  exact Matrix.eq_zero_of_mulVec_eq_zero hR h'

theorem castV_ne {a : V3 Int} (h : a ≠ 0) : castV a ≠ 0 := by
  intro e; apply h; funext i
  have := congrFun e i
  simp only [castV, Pi.zero_apply, Int.cast_eq_zero] at this
  exact this

/-- The face bisects the origin and its image. -/
structure Good (R : Mat ℝ) (f : Face) : Prop where
  pos : 0 < lenSq R (castV f.img)
  eqn : ∀ x, dot f.eqn x * lenSq R (castV f.img) = 2 * ip R (castV f.img) x

theorem made_good (R : Mat ℝ) (hR : det R ≠ 0) (f : Face) (h : Made R f) : Good R f := by
  rcases h with ⟨dir, s, rfl⟩ | ⟨a, ha, rfl⟩
  · have hne : (initFace R dir s).img ≠ 0 := by
      intro e
      have := congrFun e dir
      cases s <;> simp [initFace] at this
    have hp := lenSq_pos R hR _ (castV_ne hne)
    refine ⟨hp, fun x => ?_⟩
    have hl : lenSq R (castV (initFace R dir s).img) = RTR R dir dir := by
      rw [← metric_lenSq]
      cases s <;> fin_cases dir <;> simp [initFace, castV, metricLengthSq]
    have hip : ip R (castV (initFace R dir s).img) x = (2 * (if s then (1 : ℝ) else 0) - 1) * dot (row (RTR R) dir) x := by
      rw [← rtr_dot]
      cases s <;> fin_cases dir <;>
        simp [initFace, castV, mulMV, dot, row, vec, RTR, mulMM, transpose] <;> ring
    have hd : dot (initFace R dir s).eqn x
        = (2 * (if s then (1 : ℝ) else 0) - 1) * (2 / RTR R dir dir) * dot (row (RTR R) dir) x := by
      cases s <;> fin_cases dir <;> simp [initFace, eqns, mulMM, diag, vec, row, dot] <;> ring
    rw [hl] at hp ⊢
    rw [hip, hd]
    field_simp
  · have hp := lenSq_pos R hR _ (castV_ne ha)
    refine ⟨hp, fun x => ?_⟩
    show dot (fun i => (2 / metricLengthSq (RTR R) (castV a)) * mulMV (RTR R) (castV a) i) x * lenSq R (castV a)
      = 2 * ip R (castV a) x
    have : dot (fun i => (2 / metricLengthSq (RTR R) (castV a)) * mulMV (RTR R) (castV a) i) x
        = (2 / metricLengthSq (RTR R) (castV a)) * dot (mulMV (RTR R) (castV a)) x := by
      simp only [dot]; ring
    rw [this, metric_lenSq, rtr_dot]
    field_simp

theorem dPos_ip {R : Mat ℝ} {f : Face} (h : Good R f) (x : V3 ℝ) :
    2 * ip R (castV f.img) x = (2 * dPos f x - 1) * lenSq R (castV f.img) := by
  rw [← h.eqn]; unfold dPos; ring

/-- A step that moves the point shortens it by at least `tol` times the squared image length. -/
theorem step_decreases {R : Mat ℝ} {f : Face} (h : Good R f) (tol : ℝ) (htol : 0 < tol) (x : V3 ℝ)
    (hc : (step tol f x).2 = true) :
    lenSq R (step tol f x).1 ≤ lenSq R x - tol * lenSq R (castV f.img) := by
  unfold step at hc ⊢
  simp only at hc ⊢
  split at hc
  case isFalse => simp at hc
  case isTrue hd =>
    rw [if_pos hd]
    refine (lenSq_sub R x (castV f.img) (Int.floor (dPos f x))).le.trans ?_
    have hi := dPos_ip h x
    have hp := h.pos
    set d := dPos f x with hdd
    set L := lenSq R (castV f.img) with hL
    set n : ℝ := (Int.floor d : ℝ) with hn
    have h1 : n ≤ d := Int.floor_le d
    have h2 : d < n + 1 := Int.lt_floor_add_one d
    have key : n * (n + 1 - 2 * d) ≤ -tol := by
      rcases hd with hd | hd
      · have : Int.floor d ≤ -1 := by
          have : Int.floor d < 0 := Int.floor_lt.2 (by push_cast; linarith)
          omega
        have hn1 : n ≤ -1 := by rw [hn]; exact_mod_cast this
        nlinarith
      · have : 1 ≤ Int.floor d := Int.le_floor.2 (by push_cast; linarith)
        have hn1 : 1 ≤ n := by rw [hn]; exact_mod_cast this
        nlinarith
    have : -2 * n * ip R (castV f.img) x + n ^ 2 * L = n * (n + 1 - 2 * d) * L := by
      linear_combination (-n) * hi
    nlinarith [mul_le_mul_of_nonneg_right key hp.le]

theorem step_equiv (tol : ℝ) (f : Face) (x : V3 ℝ) : Equivalent x (step tol f x).1 := by
  unfold step
  simp only
  split
  · exact ⟨fun i => -(Int.floor (dPos f x) * f.img i), fun i => by push_cast; ring⟩
  · exact ⟨0, fun i => by simp⟩

theorem Equivalent.trans {x y z : V3 ℝ} (h : Equivalent x y) (g : Equivalent y z) : Equivalent x z := by
  obtain ⟨n, hn⟩ := h
  obtain ⟨m, hm⟩ := g
  exact ⟨fun i => n i + m i, fun i => by rw [hm, hn]; push_cast; ring⟩

theorem sweep_cons (tol : ℝ) (f : Face) (fs : List Face) (x : V3 ℝ) :
    sweep tol (f :: fs) x = ((sweep tol fs (step tol f x).1).1, (step tol f x).2 || (sweep tol fs (step tol f x).1).2) := rfl

theorem step_false {tol : ℝ} {f : Face} {x : V3 ℝ} (h : (step tol f x).2 = false) :
    (step tol f x).1 = x ∧ -tol ≤ dPos f x ∧ dPos f x ≤ 1 + tol := by
  unfold step at h ⊢
  simp only at h ⊢
  split at h
  case isTrue => simp at h
  case isFalse hd =>
    rw [if_neg hd]
    push Not at hd
    exact ⟨rfl, hd.1, hd.2⟩

theorem sweep_equiv (tol : ℝ) (fs : List Face) (x : V3 ℝ) : Equivalent x (sweep tol fs x).1 := by
  induction fs generalizing x with
  | nil => exact ⟨0, fun i => by simp [sweep]⟩
  | cons f fs ih => rw [sweep_cons]; exact (step_equiv tol f x).trans (ih _)

theorem sweep_false {tol : ℝ} {fs : List Face} {x : V3 ℝ} (h : (sweep tol fs x).2 = false) :
    (sweep tol fs x).1 = x ∧ ∀ f ∈ fs, -tol ≤ dPos f x ∧ dPos f x ≤ 1 + tol := by
  induction fs generalizing x with
  | nil => exact ⟨rfl, by simp⟩
  | cons f fs ih =>
    rw [sweep_cons] at h ⊢
    simp only [Bool.or_eq_false_iff] at h
    obtain ⟨h1, h2, h3⟩ := step_false h.1
    rw [h1] at h ⊢
    obtain ⟨g1, g2⟩ := ih h.2
    refine ⟨g1, ?_⟩
    intro f' hf'
    rcases List.mem_cons.1 hf' with rfl | hf'
    · exact ⟨h2, h3⟩
    · exact g2 f' hf'

theorem sweep_decreases {R : Mat ℝ} (tol : ℝ) (htol : 0 < tol) (L : ℝ) (hL : 0 < L) (fs : List Face)
    (hg : ∀ f ∈ fs, Good R f ∧ L ≤ lenSq R (castV f.img)) (x : V3 ℝ) :
    lenSq R (sweep tol fs x).1 ≤ lenSq R x ∧
    ((sweep tol fs x).2 = true → lenSq R (sweep tol fs x).1 ≤ lenSq R x - tol * L) := by
  induction fs generalizing x with
  | nil => exact ⟨le_refl _, by simp [sweep]⟩
  | cons f fs ih =>
    rw [sweep_cons]
    obtain ⟨hf, hfl⟩ := hg f (List.mem_cons_self ..)
    have ih' := ih (fun f' hf' => hg f' (List.mem_cons_of_mem _ hf')) (step tol f x).1
    have htl : 0 < tol * L := mul_pos htol hL
    by_cases hc : (step tol f x).2 = true
    · have hd := step_decreases hf tol htol x hc
      have : tol * L ≤ tol * lenSq R (castV f.img) := mul_le_mul_of_nonneg_left hfl htol.le
      exact ⟨by linarith [ih'.1], fun _ => by simp only; linarith [ih'.1]⟩
    · have hc' : (step tol f x).2 = false := by simpa using hc
      rw [(step_false hc').1] at ih' ⊢
      refine ⟨ih'.1, fun h => ih'.2 ?_⟩
      simpa [hc'] using h

theorem exists_min_len (R : Mat ℝ) (fs : List Face) (hg : ∀ f ∈ fs, Good R f) :
    ∃ L, 0 < L ∧ ∀ f ∈ fs, L ≤ lenSq R (castV f.img) := by
  induction fs with
  | nil => exact ⟨1, one_pos, by simp⟩
  | cons f fs ih =>
    obtain ⟨L, hL, h⟩ := ih fun f' hf' => hg f' (List.mem_cons_of_mem _ hf')
    refine ⟨min L (lenSq R (castV f.img)), lt_min hL (hg f (List.mem_cons_self ..)).pos, ?_⟩
    intro f' hf'
    rcases List.mem_cons.1 hf' with rfl | hf'
    · exact min_le_right _ _
    · exact (min_le_left _ _).trans (h f' hf')

theorem reduce_spec {R : Mat ℝ} (tol : ℝ) (htol : 0 < tol) (L : ℝ) (hL : 0 < L) (fs : List Face)
    (hg : ∀ f ∈ fs, Good R f ∧ L ≤ lenSq R (castV f.img)) (fuel : Nat) (x : V3 ℝ) (hf : lenSq R x < fuel * (tol * L)) :
    ∃ y, reduce tol fs fuel x = .ok y ∧ Equivalent x y ∧ lenSq R y ≤ lenSq R x ∧
      ∀ f ∈ fs, -tol ≤ dPos f y ∧ dPos f y ≤ 1 + tol := by
  induction fuel generalizing x with
  | zero => simp at hf; linarith [lenSq_nonneg R x]
  | succ fuel ih =>
    have hd := sweep_decreases tol htol L hL fs hg x
    unfold reduce
    by_cases hc : (sweep tol fs x).2 = true
    · obtain ⟨y, h1, h2, h3, h4⟩ := ih (sweep tol fs x).1 (by have := hd.2 hc; push_cast at hf; linarith)
      refine ⟨y, ?_, (sweep_equiv tol fs x).trans h2, h3.trans hd.1, h4⟩
      simp only [hc, if_true]; exact h1
    · have hc' : (sweep tol fs x).2 = false := by simpa using hc
      obtain ⟨g1, g2⟩ := sweep_false hc'
      refine ⟨x, by simp only [hc', g1]; rfl, ⟨0, fun i => by simp⟩, le_refl _, g2⟩

/-- The mesh version is the real version on the mesh points. -/
noncomputable def meshPoint (S : V3 Int) (iv : V3 Int) : V3 ℝ := fun k => (iv k : ℝ) / (S k : ℝ)

theorem stepMesh_eq (tol : ℝ) (S : V3 Int) (hS : ∀ k, S k ≠ 0) (f : Face) (iv : V3 Int) :
    (meshPoint S (stepMesh tol S (fun k => 1 / (S k : ℝ)) f iv).1, (stepMesh tol S (fun k => 1 / (S k : ℝ)) f iv).2)
      = step tol f (meshPoint S iv) := by
  have hd : dPosMesh f (fun k => 1 / (S k : ℝ)) iv = dPos f (meshPoint S iv) := by
    simp only [dPosMesh, dPos, dot, meshPoint]; ring
  unfold stepMesh step
  simp only [hd]
  split
  · refine Prod.ext ?_ rfl
    funext k
    have : (S k : ℝ) ≠ 0 := by exact_mod_cast hS k
    simp only [meshPoint]
    push_cast
    field_simp
  · rfl

theorem sweepMesh_eq (tol : ℝ) (S : V3 Int) (hS : ∀ k, S k ≠ 0) (fs : List Face) (iv : V3 Int) :
    (meshPoint S (sweepMesh tol S (fun k => 1 / (S k : ℝ)) fs iv).1, (sweepMesh tol S (fun k => 1 / (S k : ℝ)) fs iv).2)
      = sweep tol fs (meshPoint S iv) := by
  induction fs generalizing iv with
  | nil => rfl
  | cons f fs ih =>
    rw [sweep_cons, ← stepMesh_eq tol S hS, ← ih]; rfl

theorem reduceMesh_eq (tol : ℝ) (S : V3 Int) (hS : ∀ k, S k ≠ 0) (fs : List Face) (fuel : Nat) (iv : V3 Int) :
    (reduceMesh tol S (fun k => 1 / (S k : ℝ)) fs fuel iv).map (meshPoint S) = reduce tol fs fuel (meshPoint S iv) := by
  induction fuel generalizing iv with
  | zero => rfl
  | succ fuel ih =>
    unfold reduce reduceMesh
    rw [← sweepMesh_eq tol S hS]
    simp only
    split
    · exact ih _
    · rfl

theorem stepMesh_equiv (tol : ℝ) (S : V3 Int) (invS : V3 ℝ) (f : Face) (iv : V3 Int) :
    ∃ n : V3 Int, ∀ k, (stepMesh tol S invS f iv).1 k = iv k + n k * S k := by
  unfold stepMesh
  simp only
  split
  · exact ⟨fun i => -(Int.floor (dPosMesh f invS iv) * f.img i), fun i => by ring⟩
  · exact ⟨0, fun i => by simp⟩

theorem sweepMesh_equiv (tol : ℝ) (S : V3 Int) (invS : V3 ℝ) (fs : List Face) (iv : V3 Int) :
    ∃ n : V3 Int, ∀ k, (sweepMesh tol S invS fs iv).1 k = iv k + n k * S k := by
  induction fs generalizing iv with
  | nil => exact ⟨0, fun i => by simp [sweepMesh]⟩
  | cons f fs ih =>
    obtain ⟨n, hn⟩ := stepMesh_equiv tol S invS f iv
    obtain ⟨m, hm⟩ := ih (stepMesh tol S invS f iv).1
    refine ⟨fun k => n k + m k, fun k => ?_⟩
    show (sweepMesh tol S invS fs (stepMesh tol S invS f iv).1).1 k = _
    rw [hm, hn]; ring

theorem reduceMesh_equiv (tol : ℝ) (S : V3 Int) (invS : V3 ℝ) (fs : List Face) (fuel : Nat) (iv iv' : V3 Int)
    (h : reduceMesh tol S invS fs fuel iv = .ok iv') : ∃ n : V3 Int, ∀ k, iv' k = iv k + n k * S k := by
  induction fuel generalizing iv with
  | zero => simp [reduceMesh] at h
  | succ fuel ih =>
    obtain ⟨n, hn⟩ := sweepMesh_equiv tol S invS fs iv
    unfold reduceMesh at h
    simp only at h
    split at h
    · obtain ⟨m, hm⟩ := ih _ h
      exact ⟨fun k => n k + m k, fun k => by rw [hm, hn]; ring⟩
    · injection h with h
      exact ⟨n, fun k => by rw [← h, hn]⟩

end Jdftx.WS
