import Verif.Spec.Wannier
import Verif.Lemmas.MatFunc
import Mathlib.Analysis.SpecialFunctions.Complex.LogDeriv

/-! # Lemmas for the spread of Wannier functions: the rotations along a step -/
namespace Jdftx.Wan
noncomputable section
open M3 Finset Jdftx.MatFn
open scoped ComplexConjugate
open MatFunc (Diag DiagOK)

variable {d : ∀ n, Diag n}

theorem toHerm {n : ℕ} {B : CM} (hB : ∀ a < n, ∀ c < n, B c a = conj (B a c)) (α : ℝ) :
    (Matrix.of fun a b : Fin n => (α : ℂ) * B a b).IsHermitian := by
  ext a c
  simp only [Matrix.conjTranspose_apply, Matrix.of_apply, RCLike.star_def, map_mul, Complex.conj_ofReal]
  rw [hB c c.2 a a.2]

/-- `cis` along a line of Hermitian matrices, with the eigenvectors of one matrix. -/
theorem cis_line (hd : ∀ n, DiagOK (d n)) {n : ℕ} {B : CM} (hB : ∀ a < n, ∀ c < n, B c a = conj (B a c)) :
    ∃ (V : MatFunc.Mat n) (κ : Fin n → ℝ), Eig (Matrix.of fun a b : Fin n => B a b) V κ ∧ ∀ (α : ℝ) (a c : Fin n),
      cisN d n (fun x y => α * B x y) a c = ∑ j, V a j * Complex.exp (Complex.I * ((α * κ j : ℝ) : ℂ)) * conj (V c j) := by
  have h1 : (Matrix.of fun a b : Fin n => B a b).IsHermitian := by
    have := toHerm hB 1
    simpa using this
  refine ⟨_, _, hd n _ h1, ?_⟩
  intro α a c
  set V := (d n (Matrix.of fun a b : Fin n => B a b)).1
  set κ := (d n (Matrix.of fun a b : Fin n => B a b)).2
  have hE := hd n _ h1
  have hE' : Eig (Matrix.of fun a b : Fin n => (α : ℂ) * B a b) V (fun j => α * κ j) := by
    refine ⟨hE.left, hE.right, ?_⟩
    have e1 : (Matrix.of fun a b : Fin n => (α : ℂ) * B a b) = (α : ℂ) • Matrix.of fun a b : Fin n => B a b := by
      ext a b; simp
    have e2 : Matrix.diagonal (fun j => ((α * κ j : ℝ) : ℂ)) = (α : ℂ) • Matrix.diagonal (fun j => (κ j : ℂ)) := by
      ext a b
      by_cases hab : a = b <;> simp [Matrix.diagonal, hab]
    rw [e1, e2, Matrix.smul_mul, hE.eq, Matrix.mul_smul]
  unfold cisN
  rw [dif_pos ⟨a.2, c.2⟩]
  have hu := MatFunc.fn_unique (hd n _ (toHerm hB α)) hE' (fun x => Complex.exp (Complex.I * x))
  have : MatFunc.cis (d n) (Matrix.of fun a b : Fin n => (α : ℂ) * B a b) = fn V (fun j => α * κ j) (fun x => Complex.exp (Complex.I * x)) := hu
  rw [this, fn_apply]

theorem cisN_deriv (hd : ∀ n, DiagOK (d n)) {n : ℕ} {B : CM} (hB : ∀ a < n, ∀ c < n, B c a = conj (B a c)) {a c : ℕ} (ha : a < n) (hc : c < n) :
    HasDerivAt (fun α : ℝ => cisN d n (fun x y => α * B x y) a c) (Complex.I * B a c) 0 := by
  obtain ⟨V, κ, hE, hV⟩ := cis_line hd hB
  have e : (fun α : ℝ => cisN d n (fun x y => α * B x y) a c) = fun α : ℝ => ∑ j, V ⟨a, ha⟩ j * Complex.exp (Complex.I * ((α * κ j : ℝ) : ℂ)) * conj (V ⟨c, hc⟩ j) := by
    funext α
    exact hV α ⟨a, ha⟩ ⟨c, hc⟩
  rw [e]
  have hB' : B a c = ∑ j, V ⟨a, ha⟩ j * (κ j : ℂ) * conj (V ⟨c, hc⟩ j) := by
    have := congrFun (congrFun (MatFunc.eig_eq hE) ⟨a, ha⟩) ⟨c, hc⟩
    rw [Matrix.of_apply] at this
    rw [this]
    exact fn_apply V κ (fun x => (x : ℂ)) _ _
  rw [hB', Finset.mul_sum]
  refine HasDerivAt.fun_sum fun j _ => ?_
  have h1 : HasDerivAt (fun α : ℝ => ((α * κ j : ℝ) : ℂ)) (κ j : ℂ) 0 := by
    have := (((hasDerivAt_id (0 : ℝ)).mul_const (κ j)).ofReal_comp)
    simpa using this
  have h2 := ((h1.const_mul Complex.I).cexp)
  refine ((h2.const_mul (V ⟨a, ha⟩ j)).mul_const (conj (V ⟨c, hc⟩ j))).congr_deriv ?_
  simp
  ring

theorem cisN_zero (hd : ∀ n, DiagOK (d n)) {n : ℕ} {B : CM} (hB : ∀ a < n, ∀ c < n, B c a = conj (B a c)) {a c : ℕ} (ha : a < n) (hc : c < n) :
    cisN d n (fun x y => ((0 : ℝ) : ℂ) * B x y) a c = if a = c then 1 else 0 := by
  obtain ⟨V, κ, hE, hV⟩ := cis_line hd hB
  have := hV 0 ⟨a, ha⟩ ⟨c, hc⟩
  rw [show (((⟨a, ha⟩ : Fin n)) : ℕ) = a from rfl, show (((⟨c, hc⟩ : Fin n)) : ℕ) = c from rfl] at this
  rw [this]
  have h2 := congrFun (congrFun hE.right ⟨a, ha⟩) ⟨c, hc⟩
  rw [Matrix.mul_apply, Matrix.one_apply] at h2
  simp only [Fin.mk.injEq] at h2
  rw [← h2]
  refine Finset.sum_congr rfl fun j _ => ?_
  simp [Matrix.conjTranspose_apply]

/-- `cis` of a Hermitian matrix is unitary. -/
theorem cisN_unitary (hd : ∀ n, DiagOK (d n)) {n : ℕ} {B : CM} (hB : ∀ a < n, ∀ c < n, B c a = conj (B a c)) (α : ℝ) :
    Isometry n n (cisN d n (fun x y => α * B x y)) := by
  intro a ha c hc
  obtain ⟨V, κ, hE, hV⟩ := cis_line hd hB
  have hE2 : (fn V (fun j => α * κ j) (fun x => Complex.exp (Complex.I * x))).conjTranspose * fn V (fun j => α * κ j) (fun x => Complex.exp (Complex.I * x)) = 1 := by
    unfold fn
    rw [Matrix.conjTranspose_mul, Matrix.conjTranspose_mul, Matrix.conjTranspose_conjTranspose, Matrix.diagonal_conjTranspose]
    rw [show ∀ D E : MatFunc.Mat n, V * (D * V.conjTranspose) * (V * E * V.conjTranspose) = V * (D * (V.conjTranspose * V) * E) * V.conjTranspose from fun D E => by
      simp only [Matrix.mul_assoc]]
    rw [hE.left, Matrix.mul_one, Matrix.diagonal_mul_diagonal]
    have : (fun i => (star fun j => Complex.exp (Complex.I * ((α * κ j : ℝ) : ℂ))) i * Complex.exp (Complex.I * ((α * κ i : ℝ) : ℂ))) = fun _ => (1 : ℂ) := by
      funext i
      rw [Pi.star_apply, RCLike.star_def, ← Complex.exp_conj, ← Complex.exp_add]
      simp
    rw [this, Matrix.diagonal_one, Matrix.mul_one, hE.right]
  have h2 := congrFun (congrFun hE2 ⟨a, ha⟩) ⟨c, hc⟩
  rw [Matrix.mul_apply, Matrix.one_apply] at h2
  simp only [Fin.mk.injEq] at h2
  rw [← h2]
  unfold mul dag
  rw [Finset.sum_range]
  refine Finset.sum_congr rfl fun j _ => ?_
  rw [Matrix.conjTranspose_apply, fn_apply, fn_apply, ← hV α j ⟨a, ha⟩, ← hV α j ⟨c, hc⟩, RCLike.star_def]

/-! ## Products -/

theorem mul_assoc' (K L : ℕ) (A B C : CM) : mul L (mul K A B) C = mul K A (mul L B C) := by
  funext i j
  simp only [mul, Finset.sum_mul, Finset.mul_sum]
  rw [Finset.sum_comm]
  exact Finset.sum_congr rfl fun a _ => Finset.sum_congr rfl fun b _ => mul_assoc _ _ _

theorem dag_mul (K : ℕ) (A B : CM) : dag (mul K A B) = mul K (dag B) (dag A) := by
  funext i j
  simp only [mul, dag, map_sum, map_mul]
  exact Finset.sum_congr rfl fun a _ => mul_comm _ _

theorem dag_dag (A : CM) : dag (dag A) = A := by
  funext i j
  simp [dag]

/-- A square matrix with orthonormal columns has orthonormal rows. -/
theorem isometry_rows {n : ℕ} {A : CM} (h : Isometry n n A) {a c : ℕ} (ha : a < n) (hc : c < n) : mul n A (dag A) a c = if a = c then 1 else 0 := by
  set W : MatFunc.Mat n := Matrix.of fun x y => A x y with hW
  have h1 : W.conjTranspose * W = 1 := by
    ext x y
    have := h x x.2 y y.2
    rw [Matrix.mul_apply, Matrix.one_apply]
    simp only [Fin.ext_iff]
    rw [← this]
    unfold mul dag
    rw [Finset.sum_range]
    exact Finset.sum_congr rfl fun j _ => by simp [hW]
  have h3 : W * W.conjTranspose = 1 := mul_eq_one_comm.1 h1
  have h2 := congrFun (congrFun h3 ⟨a, ha⟩) ⟨c, hc⟩
  rw [Matrix.mul_apply, Matrix.one_apply] at h2
  simp only [Fin.mk.injEq] at h2
  rw [← h2]
  unfold mul dag
  rw [Finset.sum_range]
  exact Finset.sum_congr rfl fun j _ => by simp [hW]

theorem isometry_dag {n : ℕ} {A : CM} (h : Isometry n n A) : Isometry n n (dag A) := by
  intro a ha c hc
  rw [dag_dag]
  exact isometry_rows h ha hc

/-- Product with a unit matrix. -/
theorem sum_delta {n a : ℕ} (ha : a < n) (f : ℕ → ℂ) : ∑ k ∈ range n, (if a = k then (1 : ℂ) else 0) * f k = f a := by
  simp only [ite_mul, one_mul, zero_mul]
  rw [Finset.sum_ite_eq]
  simp [ha]

theorem sum_delta' {n a : ℕ} (ha : a < n) (f : ℕ → ℂ) : ∑ k ∈ range n, f k * (if k = a then (1 : ℂ) else 0) = f a := by
  simp only [mul_ite, mul_one, mul_zero]
  rw [Finset.sum_ite_eq']
  simp [ha]

theorem mul_unit {n : ℕ} {P : CM} {a : ℕ} (ha : a < n) (hP : ∀ c < n, P a c = if a = c then 1 else 0) (B : CM) (c : ℕ) : mul n P B a c = B a c := by
  unfold mul
  rw [Finset.sum_congr rfl fun k hk => by rw [hP k (Finset.mem_range.1 hk)]]
  exact sum_delta ha fun k => B k c

theorem mul_unit' {n : ℕ} {P : CM} {c : ℕ} (hc : c < n) (hP : ∀ a < n, P a c = if a = c then 1 else 0) (B : CM) (a : ℕ) : mul n B P a c = B a c := by
  unfold mul
  rw [Finset.sum_congr rfl fun k hk => by rw [hP k (Finset.mem_range.1 hk)]]
  exact sum_delta' hc fun k => B a k

theorem herm_mul (nFree nFreeIn : ℕ) (B : CM) (α : ℝ) : herm nFree nFreeIn (fun a c => (α : ℂ) * B a c) = fun a c => (α : ℂ) * herm nFree nFreeIn B a c := by
  funext a c
  simp only [herm, set, dag, map_mul, Complex.conj_ofReal]
  split_ifs <;> simp

theorem herm_herm (nFree nFreeIn : ℕ) (B : CM) (a c : ℕ) : herm nFree nFreeIn B c a = conj (herm nFree nFreeIn B a c) := by
  simp only [herm, set, dag, Nat.sub_zero]
  split_ifs with h1 h2 h3 h4 <;> first | omega | simp

variable {s : Sys}

/-- First part of a direction of search at one k-point, as a matrix on all bands at hand. -/
def G1 (s : Sys) (g : Grad) (l : ℕ) : CM := fun a c =>
  if s.nCenters < (s.k l).nIn ∧ (s.k l).nFixed ≤ a ∧ (s.k l).nFixed ≤ c then
    herm (s.nCenters - (s.k l).nFixed) ((s.k l).nIn - (s.k l).nFixed) (g.B1 l) (a - (s.k l).nFixed) (c - (s.k l).nFixed) else 0

/-- Second part. -/
def G2 (s : Sys) (g : Grad) (l : ℕ) : CM := fun a c =>
  if s.nFrozen ≤ a ∧ a < s.nCenters ∧ s.nFrozen ≤ c ∧ c < s.nCenters then g.B2 l (a - s.nFrozen) (c - s.nFrozen) else 0

/-- A sum in which the first terms vanish. -/
theorem sum_tail {n m : ℕ} (h : m ≤ n) (f : ℕ → ℂ) (h0 : ∀ a < m, f a = 0) : ∑ a ∈ range n, f a = ∑ q ∈ range (n - m), f (m + q) := by
  conv_lhs => rw [show n = m + (n - m) by omega, Finset.sum_range_add]
  rw [Finset.sum_eq_zero fun a ha => h0 a (Finset.mem_range.1 ha), zero_add]

/-- A sum over a block. -/
theorem sum_block {n m p : ℕ} (hmp : m ≤ p) (hpn : p ≤ n) (f : ℕ → ℂ) (h0 : ∀ a < n, ¬ (m ≤ a ∧ a < p) → f a = 0) :
    ∑ a ∈ range n, f a = ∑ q ∈ range (p - m), f (m + q) := by
  rw [← sum_tail hmp f fun a ha => h0 a (by omega) (by omega)]
  conv_lhs => rw [show n = p + (n - p) by omega, Finset.sum_range_add]
  rw [Finset.sum_eq_zero (s := range (n - p)) fun a ha => h0 (p + a) (by have := Finset.mem_range.1 ha; omega) (by omega), add_zero]

variable {g : Grad}

theorem U1_deriv (hd : ∀ n, DiagOK (d n)) (hs : Shape s) {l : ℕ} (hl : l < s.nk) {x a : ℕ} (hx : x < s.nBands) (ha : a < (s.k l).nIn) :
    HasDerivAt (fun α : ℝ => (stepEntry s d g α l (s.k l)).U1 x a) (Complex.I * ∑ q ∈ range (s.k l).nIn, (s.k l).U1 x q * G1 s g l q a) 0 ∧
    (stepEntry s d g 0 l (s.k l)).U1 x a = (s.k l).U1 x a := by
  unfold stepEntry
  simp only
  have hfc := hs.fixed l hl
  have hci := hs.centers l hl
  by_cases h : s.nCenters < (s.k l).nIn
  · rw [if_pos h]
    simp only [if_pos h]
    by_cases hf : (s.k l).nFixed ≤ a
    · simp only [set, Nat.zero_le, hx, hf, ha, and_self, if_true, herm_mul]
      have hB : ∀ x < (s.k l).nIn - (s.k l).nFixed, ∀ y < (s.k l).nIn - (s.k l).nFixed,
          herm (s.nCenters - (s.k l).nFixed) ((s.k l).nIn - (s.k l).nFixed) (g.B1 l) y x = conj (herm (s.nCenters - (s.k l).nFixed) ((s.k l).nIn - (s.k l).nFixed) (g.B1 l) x y) :=
        fun x _ y _ => herm_herm _ _ _ _ _
      constructor
      · have : Complex.I * ∑ q ∈ range (s.k l).nIn, (s.k l).U1 x q * G1 s g l q a = ∑ q ∈ range ((s.k l).nIn - (s.k l).nFixed),
            sub (s.k l).U1 0 (s.k l).nFixed (x - 0) q * (Complex.I * herm (s.nCenters - (s.k l).nFixed) ((s.k l).nIn - (s.k l).nFixed) (g.B1 l) q (a - (s.k l).nFixed)) := by
          rw [sum_tail (m := (s.k l).nFixed) (by omega), Finset.mul_sum]
          · refine Finset.sum_congr rfl fun q hq => ?_
            unfold G1 sub
            rw [if_pos ⟨h, by omega, hf⟩]
            simp only [Nat.add_sub_cancel_left, Nat.sub_zero, Nat.zero_add]
            ring
          · intro q hq
            unfold G1
            rw [if_neg (by omega), mul_zero]
        rw [this]
        unfold mul
        refine HasDerivAt.fun_sum fun q hq => ?_
        exact (cisN_deriv hd hB (Finset.mem_range.1 hq) (by omega)).const_mul _
      · unfold mul
        have e : ∀ q ∈ range ((s.k l).nIn - (s.k l).nFixed), sub (s.k l).U1 0 (s.k l).nFixed (x - 0) q *
            cisN d ((s.k l).nIn - (s.k l).nFixed) (fun a c => ((0 : ℝ) : ℂ) * herm (s.nCenters - (s.k l).nFixed) ((s.k l).nIn - (s.k l).nFixed) (g.B1 l) a c) q (a - (s.k l).nFixed)
            = sub (s.k l).U1 0 (s.k l).nFixed (x - 0) q * (if q = a - (s.k l).nFixed then 1 else 0) := fun q hq => by
          rw [cisN_zero hd hB (Finset.mem_range.1 hq) (by omega)]
        rw [Finset.sum_congr rfl e, sum_delta' (by omega)]
        unfold sub
        simp only [Nat.sub_zero, Nat.zero_add]
        congr 1
        omega
    · simp only [set, hf, false_and, and_false, if_false]
      refine ⟨?_, trivial⟩
      refine (hasDerivAt_const _ _).congr_deriv ?_
      rw [Finset.sum_eq_zero, mul_zero]
      intro q _
      unfold G1
      rw [if_neg (by tauto), mul_zero]
  · simp only [if_neg h]
    refine ⟨?_, trivial⟩
    refine (hasDerivAt_const _ _).congr_deriv ?_
    rw [Finset.sum_eq_zero, mul_zero]
    intro q _
    unfold G1
    rw [if_neg (by tauto), mul_zero]

theorem U2_deriv (hd : ∀ n, DiagOK (d n)) (hs : Shape s) (hr : Rot s) (hg : Dir s g) {l : ℕ} (hl : l < s.nk) {a c : ℕ} (hc : c < (s.k l).nIn) :
    HasDerivAt (fun α : ℝ => (stepEntry s d g α l (s.k l)).U2 a c) (Complex.I * ∑ q ∈ range (s.k l).nIn, G2 s g l a q * (s.k l).U2 q c) 0 ∧
    (stepEntry s d g 0 l (s.k l)).U2 a c = (s.k l).U2 a c := by
  unfold stepEntry
  simp only
  have hff := hs.frozen l hl
  have hfc := hs.fixed l hl
  have hci := hs.centers l hl
  by_cases hb : s.nFrozen ≤ a ∧ a < s.nCenters ∧ s.nFrozen ≤ c ∧ c < s.nCenters
  · simp only [set, hb, if_true, and_self]
    constructor
    · have : Complex.I * ∑ q ∈ range (s.k l).nIn, G2 s g l a q * (s.k l).U2 q c = ∑ q ∈ range (s.nCenters - s.nFrozen),
          Complex.I * g.B2 l (a - s.nFrozen) q * sub (s.k l).U2 s.nFrozen s.nFrozen q (c - s.nFrozen) := by
        rw [sum_block (m := s.nFrozen) (p := s.nCenters) (by omega) (by omega), Finset.mul_sum]
        · refine Finset.sum_congr rfl fun q hq => ?_
          have := Finset.mem_range.1 hq
          unfold G2 sub
          rw [if_pos ⟨hb.1, hb.2.1, by omega, by omega⟩]
          rw [show s.nFrozen + (c - s.nFrozen) = c by omega, Nat.add_sub_cancel_left]
          ring
        · intro q _ hq
          unfold G2
          rw [if_neg (by tauto), zero_mul]
      rw [this]
      unfold mul
      refine HasDerivAt.fun_sum fun q hq => ?_
      exact (cisN_deriv hd (hg l hl) (by omega) (Finset.mem_range.1 hq)).mul_const _
    · unfold mul
      have e : ∀ q ∈ range (s.nCenters - s.nFrozen), cisN d (s.nCenters - s.nFrozen) (fun a c => ((0 : ℝ) : ℂ) * g.B2 l a c) (a - s.nFrozen) q *
          sub (s.k l).U2 s.nFrozen s.nFrozen q (c - s.nFrozen) = (if a - s.nFrozen = q then 1 else 0) * sub (s.k l).U2 s.nFrozen s.nFrozen q (c - s.nFrozen) := fun q hq => by
        rw [cisN_zero hd (hg l hl) (by omega) (Finset.mem_range.1 hq)]
      rw [Finset.sum_congr rfl e, sum_delta (by omega)]
      unfold sub
      rw [show s.nFrozen + (a - s.nFrozen) = a by omega, show s.nFrozen + (c - s.nFrozen) = c by omega]
  · simp only [set, hb, if_false]
    refine ⟨?_, trivial⟩
    refine (hasDerivAt_const _ _).congr_deriv ?_
    rw [Finset.sum_eq_zero, mul_zero]
    intro q hq
    by_cases h2 : s.nFrozen ≤ a ∧ a < s.nCenters ∧ s.nFrozen ≤ q ∧ q < s.nCenters
    · rw [hr.block l hl q (Finset.mem_range.1 hq) c hc (by tauto), if_neg (by rintro rfl; tauto), mul_zero]
    · unfold G2
      rw [if_neg h2, zero_mul]

/-- Rate of change of the rotation, to be applied after it. -/
def X (s : Sys) (g : Grad) (l : ℕ) : CM := mul (s.k l).nIn (dag (s.k l).U2) (mul (s.k l).nIn (fun a c => Complex.I * (G1 s g l a c + G2 s g l a c)) (s.k l).U2)

theorem U_deriv (hd : ∀ n, DiagOK (d n)) (hs : Shape s) (hr : Rot s) (hg : Dir s g) {l : ℕ} (hl : l < s.nk) {x c : ℕ} (hx : x < s.nBands) (hc : c < (s.k l).nIn) :
    HasDerivAt (fun α : ℝ => ((step s d g α).k l).U x c) (mul (s.k l).nIn (s.k l).U (X s g l) x c) 0 ∧
    ((step s d g 0).k l).U x c = (s.k l).U x c := by
  have e : ∀ α : ℝ, ((step s d g α).k l).U x c = ∑ a ∈ range (s.k l).nIn, (stepEntry s d g α l (s.k l)).U1 x a * (stepEntry s d g α l (s.k l)).U2 a c := fun α => rfl
  constructor
  · simp only [e]
    have h := HasDerivAt.fun_sum (u := range (s.k l).nIn) fun a ha =>
      ((U1_deriv (g := g) hd hs hl hx (Finset.mem_range.1 ha)).1.mul (U2_deriv (a := a) hd hs hr hg hl hc).1)
    refine h.congr_deriv ?_
    have e3 : mul (s.k l).nIn (s.k l).U (X s g l) x c = mul (s.k l).nIn (s.k l).U1 (mul (s.k l).nIn (fun a c => Complex.I * (G1 s g l a c + G2 s g l a c)) (s.k l).U2) x c := by
      unfold X
      rw [hr.prod l hl, mul_assoc']
      rw [← mul_assoc' (s.k l).nIn (s.k l).nIn (s.k l).U2]
      refine Finset.sum_congr rfl fun a ha => ?_
      congr 1
      exact mul_unit (Finset.mem_range.1 ha) (fun y hy => isometry_rows (hr.unitary l hl) (Finset.mem_range.1 ha) hy) _ _
    rw [e3]
    have hz : ∀ a ∈ range (s.k l).nIn,
        (Complex.I * ∑ q ∈ range (s.k l).nIn, (s.k l).U1 x q * G1 s g l q a) * (stepEntry s d g 0 l (s.k l)).U2 a c +
          (stepEntry s d g 0 l (s.k l)).U1 x a * (Complex.I * ∑ q ∈ range (s.k l).nIn, G2 s g l a q * (s.k l).U2 q c) =
        (∑ q ∈ range (s.k l).nIn, (s.k l).U1 x q * (Complex.I * G1 s g l q a * (s.k l).U2 a c)) +
          ∑ q ∈ range (s.k l).nIn, (s.k l).U1 x a * (Complex.I * G2 s g l a q * (s.k l).U2 q c) := by
      intro a ha
      rw [(U2_deriv hd hs hr hg hl hc).2, (U1_deriv hd hs hl hx (Finset.mem_range.1 ha)).2]
      simp only [Finset.mul_sum, Finset.sum_mul]
      congr 1 <;> exact Finset.sum_congr rfl fun q _ => by ring
    rw [Finset.sum_congr rfl hz, Finset.sum_add_distrib]
    rw [Finset.sum_comm (s := range (s.k l).nIn) (t := range (s.k l).nIn) (f := fun a q => (s.k l).U1 x q * (Complex.I * G1 s g l q a * (s.k l).U2 a c))]
    rw [← Finset.sum_add_distrib]
    unfold mul
    refine Finset.sum_congr rfl fun a _ => ?_
    rw [← Finset.sum_add_distrib, Finset.mul_sum]
    exact Finset.sum_congr rfl fun q _ => by ring
  · rw [e, hr.prod l hl]
    unfold mul
    refine Finset.sum_congr rfl fun a ha => ?_
    rw [(U2_deriv hd hs hr hg hl hc).2, (U1_deriv hd hs hl hx (Finset.mem_range.1 ha)).2]

end
end Jdftx.Wan
