import Verif.Spec.GLLBsc
import Verif.Lemmas.DavidsonStep
import Verif.Lemmas.Cavity
import Verif.Lemmas.CoulombKernels
import Mathlib.Analysis.Calculus.Deriv.MeanValue

/-! # Lemmas on the GLLB-sc potential -/
set_option linter.unusedSectionVars false
namespace Jdftx.GLLB
open Matrix Jdftx.ElecMin Jdftx.MatFn Filter Topology
open scoped ComplexOrder
noncomputable section

variable {G : Type} [Fintype G] {nb n : ℕ}

/-! ### Error function -/

theorem erfc_tail {x : ℝ} (hx : 0 < x) : x * Smear.erfc x < Real.exp (-x ^ 2) / Real.sqrt Real.pi := by
  have hp : 0 < Real.sqrt Real.pi := Real.sqrt_pos.2 Real.pi_pos
  set h : ℝ → ℝ := fun x => Real.exp (-x ^ 2) / (Real.sqrt Real.pi * x) - Smear.erfc x with hh
  have hd : ∀ x : ℝ, 0 < x → HasDerivAt h (-(Real.exp (-x ^ 2) / (Real.sqrt Real.pi * x ^ 2))) x := by
    intro x hx
    have h1 : HasDerivAt (fun x : ℝ => Real.exp (-x ^ 2)) (Real.exp (-x ^ 2) * -(2 * x)) x := by
      have := ((hasDerivAt_pow 2 x).neg).exp
      simpa using this
    have h2 : HasDerivAt (fun x : ℝ => Real.sqrt Real.pi * x) (Real.sqrt Real.pi) x := by simpa using (hasDerivAt_id x).const_mul (Real.sqrt Real.pi)
    have h3 := (h1.div h2 (by positivity)).sub (Smear.erfc_deriv x)
    refine h3.congr_deriv ?_
    field_simp
    ring
  have hanti : StrictAntiOn h (Set.Ioi 0) := by
    refine strictAntiOn_of_deriv_neg (convex_Ioi 0) (fun x hx => (hd x hx).continuousAt.continuousWithinAt) fun x hx => ?_
    rw [interior_Ioi] at hx
    rw [(hd x hx).deriv]
    have : 0 < x := hx
    have := Real.exp_pos (-x ^ 2)
    have : 0 < Real.exp (-x ^ 2) / (Real.sqrt Real.pi * x ^ 2) := by positivity
    linarith
  have hlim : Tendsto h atTop (𝓝 0) := by
    have h1 : Tendsto (fun x : ℝ => Real.exp (-x ^ 2) / (Real.sqrt Real.pi * x)) atTop (𝓝 0) := by
      have h2 : Tendsto (fun x : ℝ => Real.exp (-x ^ 2)) atTop (𝓝 0) := Real.tendsto_exp_neg_atTop_nhds_zero.comp (tendsto_pow_atTop (by norm_num : (2 : ℕ) ≠ 0))
      exact h2.div_atTop (tendsto_id.const_mul_atTop hp)
    simpa using h1.sub Smear.erfc_top
  have h0 : 0 ≤ h (x + 1) := by
    refine le_of_tendsto hlim ?_
    filter_upwards [eventually_ge_atTop (x + 1)] with z hz
    exact hanti.antitoneOn (show (0 : ℝ) < x + 1 by linarith) (show (0 : ℝ) < z by linarith) hz
  have h1 : h (x + 1) < h x := hanti hx (show (0 : ℝ) < x + 1 by linarith) (by linarith)
  have h2 : 0 < h x := h0.trans_lt h1
  have h3 : Smear.erfc x < Real.exp (-x ^ 2) / (Real.sqrt Real.pi * x) := by
    simp only [hh] at h2
    linarith
  calc x * Smear.erfc x < x * (Real.exp (-x ^ 2) / (Real.sqrt Real.pi * x)) := mul_lt_mul_of_pos_left h3 hx
    _ = _ := by field_simp

theorem smooth_eq (X : ℝ) : smooth X = 0.5 * (Real.exp (-X ^ 2) / Real.sqrt Real.pi + X * (2 - Smear.erfc X)) := by
  unfold smooth CoulK.erf
  rw [show -X * X = -X ^ 2 by ring]
  ring

theorem smooth_neg (X : ℝ) : smooth (-X) = smooth X - X := by
  rw [smooth_eq, smooth_eq, Smear.erfc_neg, neg_sq]
  ring

theorem smooth_deriv (X : ℝ) : HasDerivAt smooth (0.5 * (2 - Smear.erfc X)) X := by
  have hp : Real.sqrt Real.pi ≠ 0 := (Real.sqrt_pos.2 Real.pi_pos).ne'
  have h1 : HasDerivAt (fun x : ℝ => Real.exp (-x ^ 2)) (Real.exp (-X ^ 2) * -(2 * X)) X := by
    have := ((hasDerivAt_pow 2 X).neg).exp
    simpa using this
  have h2 := (((h1.div_const (Real.sqrt Real.pi)).add ((hasDerivAt_id X).mul ((Smear.erfc_deriv X).const_sub 2))).const_mul 0.5)
  have h3 : smooth = fun y => 0.5 * (Real.exp (-y ^ 2) / Real.sqrt Real.pi + id y * (2 - Smear.erfc y)) := funext smooth_eq
  rw [h3]
  refine h2.congr_deriv ?_
  simp only [id]
  field_simp
  ring

theorem smooth_mono : StrictMono smooth := by
  refine strictMono_of_deriv_pos fun X => ?_
  rw [(smooth_deriv X).deriv]
  have := Cavity.erfc_lt_two X
  linarith

theorem smooth_pos (X : ℝ) : 0 < smooth X := by
  have hp : 0 < Real.sqrt Real.pi := Real.sqrt_pos.2 Real.pi_pos
  have h0 : 0 < smooth 0 := by
    rw [smooth_eq]
    have : 0 < Real.exp (-(0 : ℝ) ^ 2) / Real.sqrt Real.pi := div_pos (Real.exp_pos _) hp
    linarith
  rcases lt_trichotomy X 0 with h | h | h
  · have h1 := erfc_tail (x := -X) (by linarith)
    rw [smooth_eq]
    have h2 := Smear.erfc_neg (-X)
    rw [neg_neg] at h2
    rw [h2]
    rw [neg_sq] at h1
    linarith
  · rw [h]; exact h0
  · exact h0.trans (smooth_mono h)

theorem smooth_gap (X : ℝ) : max 0 X < smooth X ∧ smooth X - max 0 X ≤ 0.5 / Real.sqrt Real.pi := by
  have h0 : smooth 0 = 0.5 / Real.sqrt Real.pi := by
    rw [smooth_eq]
    simp
    ring
  rw [← h0]
  rcases le_total X 0 with h | h
  · rw [max_eq_left h, sub_zero]
    exact ⟨smooth_pos X, smooth_mono.monotone h⟩
  · rw [max_eq_right h, ← smooth_neg]
    refine ⟨?_, smooth_mono.monotone (by linarith)⟩
    have := smooth_pos (-X)
    rw [smooth_neg] at this
    linarith

/-! ### Extremal energies -/

theorem mem_entries {P : List (QState G nb)} {x : QState G nb × Fin nb} : x ∈ entries P ↔ x.1 ∈ P := by
  unfold entries
  rw [List.mem_flatMap]
  constructor
  · rintro ⟨q, hq, hx⟩
    obtain ⟨b, -, rfl⟩ := List.mem_map.1 hx
    exact hq
  · intro h
    exact ⟨x.1, h, List.mem_map.2 ⟨x.2, List.mem_finRange _, rfl⟩⟩

section
variable {α : Type} (p : α → Prop) [DecidablePred p] (f : α → ℝ)

theorem foldMax (L : List α) (a : ℝ) : (a ≤ L.foldl (fun a x => if p x then max a (f x) else a) a) ∧ (∀ x ∈ L, p x → f x ≤ L.foldl (fun a x => if p x then max a (f x) else a) a) ∧
    (L.foldl (fun a x => if p x then max a (f x) else a) a = a ∨ ∃ x ∈ L, p x ∧ L.foldl (fun a x => if p x then max a (f x) else a) a = f x) := by
  induction L generalizing a with
  | nil => simp
  | cons y t ih =>
    obtain ⟨h1, h2, h3⟩ := ih (if p y then max a (f y) else a)
    rw [List.foldl_cons]
    have h4 : a ≤ if p y then max a (f y) else a := by split <;> simp
    refine ⟨h4.trans h1, ?_, ?_⟩
    · intro x hx hpx
      rcases List.mem_cons.1 hx with rfl | hx
      · refine le_trans ?_ h1
        rw [if_pos hpx]
        exact le_max_right _ _
      · exact h2 x hx hpx
    · rcases h3 with h | ⟨x, hx, hpx, h⟩
      · by_cases hy : p y
        · rw [if_pos hy] at h
          rcases le_total a (f y) with hle | hle
          · rw [max_eq_right hle] at h
            exact Or.inr ⟨y, by simp, hy, by rw [if_pos hy, max_eq_right hle]; exact h⟩
          · rw [max_eq_left hle] at h
            exact Or.inl (by rw [if_pos hy, max_eq_left hle]; exact h)
        · rw [if_neg hy] at h
          exact Or.inl (by rw [if_neg hy]; exact h)
      · exact Or.inr ⟨x, List.mem_cons_of_mem _ hx, hpx, h⟩

theorem foldMin (L : List α) (a : ℝ) : (L.foldl (fun a x => if p x then min a (f x) else a) a ≤ a) ∧ (∀ x ∈ L, p x → L.foldl (fun a x => if p x then min a (f x) else a) a ≤ f x) ∧
    (L.foldl (fun a x => if p x then min a (f x) else a) a = a ∨ ∃ x ∈ L, p x ∧ L.foldl (fun a x => if p x then min a (f x) else a) a = f x) := by
  have key : ∀ a : ℝ, L.foldl (fun a x => if p x then min a (f x) else a) a = -L.foldl (fun a x => if p x then max a (-f x) else a) (-a) := by
    induction L with
    | nil => simp
    | cons y t ih =>
      intro a
      rw [List.foldl_cons, List.foldl_cons, ih]
      congr 2
      split
      · rw [max_neg_neg]
      · rfl
  obtain ⟨h1, h2, h3⟩ := foldMax p (fun x => -f x) L (-a)
  rw [key]
  refine ⟨by linarith, fun x hx hpx => by linarith [h2 x hx hpx], ?_⟩
  rcases h3 with h | ⟨x, hx, hpx, h⟩
  · exact Or.inl (by rw [h]; ring)
  · exact Or.inr ⟨x, hx, hpx, by rw [h]; ring⟩

end

open Classical in
theorem extremalProc_homo (M : ℝ) (en : QState G nb → Fin nb → ℝ) (P : List (QState G nb)) (s : Fin 2) :
    extremalProc M true en P s = (entries P).foldl (fun a x => if x.1.spin = s ∧ 1 / 2 ≤ x.1.F x.2 then max a (en x.1 x.2) else a) (-M) := by
  unfold extremalProc
  simp only [if_true]
  congr 1
  funext a x
  by_cases h1 : x.1.spin = s <;> by_cases h2 : (1 : ℝ) / 2 ≤ x.1.F x.2
  · rw [if_pos h1, if_pos (by norm_num at h2 ⊢; exact h2), if_pos ⟨h1, h2⟩]
  · rw [if_pos h1, if_neg (by norm_num at h2 ⊢; exact h2), if_neg (fun h => h2 h.2)]
  · rw [if_neg h1, if_neg (fun h => h1 h.1)]
  · rw [if_neg h1, if_neg (fun h => h1 h.1)]

open Classical in
theorem extremalProc_lumo (M : ℝ) (en : QState G nb → Fin nb → ℝ) (P : List (QState G nb)) (s : Fin 2) :
    extremalProc M false en P s = (entries P).foldl (fun a x => if x.1.spin = s ∧ x.1.F x.2 ≤ 1 / 2 then min a (en x.1 x.2) else a) M := by
  unfold extremalProc
  simp only [Bool.false_eq_true, if_false]
  congr 1
  funext a x
  by_cases h1 : x.1.spin = s <;> by_cases h2 : x.1.F x.2 ≤ (1 : ℝ) / 2
  · rw [if_pos h1, if_pos (by norm_num at h2 ⊢; exact h2), if_pos ⟨h1, h2⟩]
  · rw [if_pos h1, if_neg (by norm_num at h2 ⊢; exact h2), if_neg (fun h => h2 h.2)]
  · rw [if_neg h1, if_neg (fun h => h1 h.1)]
  · rw [if_neg h1, if_neg (fun h => h1 h.1)]

theorem extremal_homo (M : ℝ) (en : QState G nb → Fin nb → ℝ) (procs : List (List (QState G nb))) (s : Fin 2) :
    (-M ≤ extremal M true en procs s) ∧ (∀ q b, Band procs s q b → 1 / 2 ≤ q.F b → en q b ≤ extremal M true en procs s) ∧
      (extremal M true en procs s = -M ∨ ∃ q b, Band procs s q b ∧ 1 / 2 ≤ q.F b ∧ extremal M true en procs s = en q b) := by
  classical
  have e : extremal M true en procs s = procs.foldl (fun a P => if True then max a (extremalProc M true en P s) else a) (-M) := by
    unfold extremal
    rw [List.foldl_map]
    simp
  obtain ⟨h1, h2, h3⟩ := foldMax (fun _ : List (QState G nb) => True) (fun P => extremalProc M true en P s) procs (-M)
  rw [e]
  refine ⟨h1, fun q b hb hF => ?_, ?_⟩
  · obtain ⟨⟨P, hP, hq⟩, hs⟩ := hb
    refine le_trans ?_ (h2 P hP trivial)
    rw [extremalProc_homo]
    exact (foldMax (fun x : QState G nb × Fin nb => x.1.spin = s ∧ 1 / 2 ≤ x.1.F x.2) (fun x => en x.1 x.2) (entries P) (-M)).2.1 (q, b) (mem_entries.2 hq) ⟨hs, hF⟩
  · rcases h3 with h | ⟨P, hP, -, h⟩
    · exact Or.inl h
    · rw [h, extremalProc_homo]
      rcases (foldMax (fun x : QState G nb × Fin nb => x.1.spin = s ∧ 1 / 2 ≤ x.1.F x.2) (fun x => en x.1 x.2) (entries P) (-M)).2.2 with h' | ⟨x, hx, hpx, h'⟩
      · exact Or.inl h'
      · exact Or.inr ⟨x.1, x.2, ⟨⟨P, hP, mem_entries.1 hx⟩, hpx.1⟩, hpx.2, h'⟩

theorem extremal_lumo (M : ℝ) (en : QState G nb → Fin nb → ℝ) (procs : List (List (QState G nb))) (s : Fin 2) :
    (extremal M false en procs s ≤ M) ∧ (∀ q b, Band procs s q b → q.F b ≤ 1 / 2 → extremal M false en procs s ≤ en q b) ∧
      (extremal M false en procs s = M ∨ ∃ q b, Band procs s q b ∧ q.F b ≤ 1 / 2 ∧ extremal M false en procs s = en q b) := by
  classical
  have e : extremal M false en procs s = procs.foldl (fun a P => if True then min a (extremalProc M false en P s) else a) M := by
    unfold extremal
    rw [List.foldl_map]
    simp
  obtain ⟨h1, h2, h3⟩ := foldMin (fun _ : List (QState G nb) => True) (fun P => extremalProc M false en P s) procs M
  rw [e]
  refine ⟨h1, fun q b hb hF => ?_, ?_⟩
  · obtain ⟨⟨P, hP, hq⟩, hs⟩ := hb
    refine le_trans (h2 P hP trivial) ?_
    rw [extremalProc_lumo]
    exact (foldMin (fun x : QState G nb × Fin nb => x.1.spin = s ∧ x.1.F x.2 ≤ 1 / 2) (fun x => en x.1 x.2) (entries P) M).2.1 (q, b) (mem_entries.2 hq) ⟨hs, hF⟩
  · rcases h3 with h | ⟨P, hP, -, h⟩
    · exact Or.inl h
    · rw [h, extremalProc_lumo]
      rcases (foldMin (fun x : QState G nb × Fin nb => x.1.spin = s ∧ x.1.F x.2 ≤ 1 / 2) (fun x => en x.1 x.2) (entries P) M).2.2 with h' | ⟨x, hx, hpx, h'⟩
      · exact Or.inl h'
      · exact Or.inr ⟨x.1, x.2, ⟨⟨P, hP, mem_entries.1 hx⟩, hpx.1⟩, hpx.2, h'⟩

/-! ### Eigenvalues of a sum -/

/-- Adding a positive semidefinite matrix does not lower eigenvalues. -/
theorem weyl {A P V W : ElecMin.Mat n} {e f : Fin n → ℝ} (hV : Eig A V e) (he : Monotone e) (hW : Eig (A + P) W f) (hf : Monotone f) (hP : P.PosSemidef) (b : Fin n) : e b ≤ f b := by
  have hA : A.IsHermitian := by
    have h1 : A = V * diagonal (fun j => (e j : ℂ)) * Vᴴ := by rw [← hV.eq, Matrix.mul_assoc, hV.right, Matrix.mul_one]
    rw [h1]
    refine isHermitian_mul_mul_conjTranspose _ ?_
    rw [isHermitian_diagonal_iff]
    intro i
    simp [IsSelfAdjoint, Complex.conj_ofReal]
  have hbn : b.val + 1 ≤ n := b.2
  let SP : Davidson.Sys (Fin n) (Fin 0) := ⟨A + P, 1, 0, 0, 1⟩
  let SA : Davidson.Sys (Fin n) (Fin 0) := ⟨A, 1, 0, 0, 1⟩
  have rW : Davidson.Ritz SP W f := ⟨by show Wᴴ * (1 * W) = 1; rw [Matrix.one_mul, hW.left], by show Wᴴ * ((A + P) * W) = _; rw [hW.eq, ← Matrix.mul_assoc, hW.left, Matrix.one_mul], hf⟩
  have rV : Davidson.Ritz SA V e := ⟨by show Vᴴ * (1 * V) = 1; rw [Matrix.one_mul, hV.left], by show Vᴴ * (A * V) = _; rw [hV.eq, ← Matrix.mul_assoc, hV.left, Matrix.one_mul], he⟩
  have rWb := Davidson.ritz_take rW hbn
  set Wb : Matrix (Fin n) (Fin (b.val + 1)) ℂ := Matrix.of fun i j => W i (Fin.castLE hbn j) with hWb
  have ho : Wbᴴ * Wb = 1 := by
    have := rWb.ortho
    rwa [show SP.O = 1 from rfl, Matrix.one_mul] at this
  have hd : Wbᴴ * ((A + P) * Wb) = diagonal fun j => (f (Fin.castLE hbn j) : ℂ) := rWb.diag
  have hA' : (Wbᴴ * (A * Wb)).IsHermitian := by
    rw [← Matrix.mul_assoc]
    exact isHermitian_conjTranspose_mul_mul _ hA
  obtain ⟨⟨U, mu⟩, hU, hmu⟩ := Davidson.sorted_eig_exists hA'
  have rU : Davidson.Ritz SA (Wb * U) mu := by
    refine ⟨?_, ?_, hmu⟩
    · show (Wb * U)ᴴ * (1 * (Wb * U)) = 1
      rw [Matrix.one_mul, conjTranspose_mul, Matrix.mul_assoc, ← Matrix.mul_assoc Wbᴴ, ho, Matrix.one_mul, hU.left]
    · show (Wb * U)ᴴ * (A * (Wb * U)) = _
      have : (Wb * U)ᴴ * (A * (Wb * U)) = Uᴴ * ((Wbᴴ * (A * Wb)) * U) := by simp only [conjTranspose_mul, Matrix.mul_assoc]
      rw [this, hU.eq, ← Matrix.mul_assoc, hU.left, Matrix.one_mul]
  have h1 : e b ≤ mu ⟨b.val, by omega⟩ :=
    Davidson.interlace rV rU ⟨Vᴴ * (Wb * U), by rw [← Matrix.mul_assoc, hV.right, Matrix.one_mul]⟩ b.val (by omega) b.2
  refine h1.trans ?_
  set c : Fin (b.val + 1) := ⟨b.val, by omega⟩ with hc
  -- compare the two quadratic forms at the top vector
  set x : Fin (b.val + 1) → ℂ := fun j => U j c with hx
  have hx1 : ∑ j, Complex.normSq (x j) = 1 := by
    have := congrArg Complex.re (congrFun (congrFun hU.left c) c)
    rw [mul_apply, Matrix.one_apply_eq, Complex.re_sum] at this
    rw [← Complex.one_re, ← this]
    refine Finset.sum_congr rfl fun j _ => ?_
    rw [conjTranspose_apply, Complex.star_def, ← Complex.normSq_eq_conj_mul_self, Complex.ofReal_re]
  have hq1 : (star x ⬝ᵥ ((Wbᴴ * (A * Wb)) *ᵥ x)).re = mu c := by
    have h2 : (Wbᴴ * (A * Wb)) *ᵥ x = fun i => (mu c : ℂ) * x i := by
      funext i
      have := congrFun (congrFun hU.eq i) c
      rw [mul_diagonal, mul_apply] at this
      rw [mul_comm, ← this]
      rfl
    rw [h2]
    have h3 : star x ⬝ᵥ (fun i => (mu c : ℂ) * x i) = (mu c : ℂ) * (star x ⬝ᵥ x) := by
      simp only [dotProduct, Finset.mul_sum]
      exact Finset.sum_congr rfl fun i _ => by ring
    rw [h3, Complex.re_ofReal_mul, Davidson.quad_one, hx1, mul_one]
  have hq2 : (star x ⬝ᵥ ((Wbᴴ * ((A + P) * Wb)) *ᵥ x)).re ≤ f b := by
    rw [hd, Davidson.quad_diag]
    calc ∑ j, f (Fin.castLE hbn j) * Complex.normSq (x j) ≤ ∑ j, f b * Complex.normSq (x j) :=
          Finset.sum_le_sum fun j _ => mul_le_mul_of_nonneg_right (hf (by rw [Fin.le_def]; have := j.2; simp; omega)) (Complex.normSq_nonneg _)
      _ = f b := by rw [← Finset.mul_sum, hx1, mul_one]
  have hq3 : star x ⬝ᵥ ((Wbᴴ * ((A + P) * Wb)) *ᵥ x) = star x ⬝ᵥ ((Wbᴴ * (A * Wb)) *ᵥ x) + star x ⬝ᵥ ((Wbᴴ * (P * Wb)) *ᵥ x) := by
    rw [Matrix.add_mul, Matrix.mul_add, Matrix.add_mulVec, dotProduct_add]
  have hq4 : 0 ≤ (star x ⬝ᵥ ((Wbᴴ * (P * Wb)) *ᵥ x)).re := by
    have := (hP.conjTranspose_mul_mul_same Wb).dotProduct_mulVec_nonneg x
    rw [Matrix.mul_assoc] at this
    exact (Complex.le_def.1 this).1
  have := congrArg Complex.re hq3
  rw [Complex.add_re, hq1] at this
  linarith

end
end Jdftx.GLLB
