import Verif.Spec.LatticeStep
import Verif.Props.Symmetrize
import Mathlib.LinearAlgebra.Matrix.NonsingularInverse
import Mathlib.LinearAlgebra.Matrix.Nondegenerate
import Mathlib.LinearAlgebra.Matrix.DotProduct
import Mathlib.Tactic.NoncommRing
import Mathlib.Tactic.LinearCombination

/-! # C68: lattice minimisation keeps fixed lattice vectors and symmetries -/
namespace Jdftx.LatMin
open Jdftx.M3 Jdftx.Sym
noncomputable section
set_option linter.unusedSectionVars false

abbrev MM := Matrix (Fin 3) (Fin 3) ℝ

theorem dot_eq (a b : V3 ℝ) : dot a b = a ⬝ᵥ b := by
  simp [dot, dotProduct, Fin.sum_univ_three]

theorem col_eq (R : Mat ℝ) (k : Fin 3) : column R k = fun i => R i k := by
  funext i; match i with | 0 => rfl | 1 => rfl | 2 => rfl

/-- What the projector built so far does, `F` being the fixed vectors met so far. -/
structure FreeP (R : Mat ℝ) (F : Fin 3 → Prop) (vs : List (V3 ℝ)) (P : Mat ℝ) : Prop where
  symm : (Matrix.of P).transpose = Matrix.of P
  kill : ∀ k, F k → Matrix.mulVec (Matrix.of P) (column R k) = 0
  span : ∀ u, ∃ c : V3 ℝ, (∀ k, ¬ F k → c k = 0) ∧ u - Matrix.mulVec (Matrix.of P) u = Matrix.mulVec (Matrix.of R) c
  seq : ∀ u, removeAll vs u = Matrix.mulVec (Matrix.of P) u

theorem mulVec_comb (R : Mat ℝ) (c : V3 ℝ) : Matrix.mulVec (Matrix.of R) c = ∑ k, c k • column R k := by
  funext i
  simp only [Matrix.mulVec, dotProduct, Matrix.of_apply, Finset.sum_apply, Pi.smul_apply, smul_eq_mul, col_eq]
  exact Finset.sum_congr rfl fun k _ => by ring

theorem FreeP.killR {R : Mat ℝ} {F vs P} (h : FreeP R F vs P) (c : V3 ℝ) (hc : ∀ k, ¬ F k → c k = 0) :
    Matrix.mulVec (Matrix.of P) (Matrix.mulVec (Matrix.of R) c) = 0 := by
  rw [mulVec_comb R c, Matrix.mulVec_sum]
  refine Finset.sum_eq_zero fun k _ => ?_
  rw [Matrix.mulVec_smul]
  by_cases hk : F k
  · rw [h.kill k hk, smul_zero]
  · rw [hc k hk, zero_smul]

theorem FreeP.idem {R : Mat ℝ} {F vs P} (h : FreeP R F vs P) (u : V3 ℝ) :
    Matrix.mulVec (Matrix.of P) (Matrix.mulVec (Matrix.of P) u) = Matrix.mulVec (Matrix.of P) u := by
  obtain ⟨c, hc, e⟩ := h.span u
  have := h.killR c hc
  rw [← e, Matrix.mulVec_sub, sub_eq_zero] at this
  exact this.symm

theorem FreeP.adj {R : Mat ℝ} {F vs P} (h : FreeP R F vs P) (u v : V3 ℝ) :
    dotProduct (Matrix.mulVec (Matrix.of P) u) v = dotProduct u (Matrix.mulVec (Matrix.of P) v) := by
  rw [Matrix.dotProduct_mulVec, ← Matrix.mulVec_transpose, h.symm]

theorem FreeP.absorb {R : Mat ℝ} {F vs P} (h : FreeP R F vs P) (d : Mat ℝ) (hd : ∀ k, F k → Matrix.mulVec (Matrix.of d) (column R k) = 0) :
    Matrix.of d * Matrix.of P = Matrix.of d := by
  refine Matrix.ext_of_mulVec_single fun i => ?_
  obtain ⟨c, hc, e⟩ := h.span (Pi.single i 1)
  have h0 : Matrix.mulVec (Matrix.of d) (Pi.single i 1 - Matrix.mulVec (Matrix.of P) (Pi.single i 1)) = 0 := by
    rw [e, mulVec_comb R c, Matrix.mulVec_sum]
    refine Finset.sum_eq_zero fun k _ => ?_
    rw [Matrix.mulVec_smul]
    by_cases hk : F k
    · rw [hd k hk, smul_zero]
    · rw [hc k hk, zero_smul]
  rw [Matrix.mulVec_sub, sub_eq_zero, Matrix.mulVec_mulVec] at h0
  exact h0.symm

theorem FreeP.extend {R : Mat ℝ} (hR : det R ≠ 0) {F vs P} (h : FreeP R F vs P) (k : Fin 3) (hk : ¬ F k) :
    let w := removeAll vs (column R k)
    let v : V3 ℝ := fun i => w i * (1 / length w)
    FreeP R (fun j => F j ∨ j = k) (vs ++ [v]) (fun i j => P i j - outer v v i j) := by
  intro w v
  have hw : w = Matrix.mulVec (Matrix.of P) (column R k) := h.seq _
  have hw0 : w ≠ 0 := by
    intro h0
    obtain ⟨c, hc, e⟩ := h.span (column R k)
    rw [← hw, h0, sub_zero] at e
    have e2 : Matrix.mulVec (Matrix.of R) (c - Pi.single k 1) = 0 := by
      rw [Matrix.mulVec_sub, ← e, Matrix.mulVec_single_one, sub_eq_zero, col_eq]; rfl
    have := Matrix.eq_zero_of_mulVec_eq_zero (by rw [← det_eq]; exact hR) e2
    have := congrFun this k
    rw [Pi.sub_apply, hc k hk, Pi.single_eq_same] at this
    norm_num at this
  have hww : 0 < dotProduct w w := by
    rcases lt_or_eq_of_le (Finset.sum_nonneg fun i _ => mul_self_nonneg (w i) : 0 ≤ dotProduct w w) with h1 | h1
    · exact h1
    · exact absurd (dotProduct_self_eq_zero.mp h1.symm) hw0
  have hlen : length w * length w = dotProduct w w := by
    unfold length; rw [dot_eq]; exact Real.mul_self_sqrt hww.le
  have hl0 : length w ≠ 0 := by intro h0; rw [h0] at hlen; linarith
  have hv : v = (1 / length w) • w := by funext i; show w i * _ = _ * w i; ring
  have hPw : Matrix.mulVec (Matrix.of P) w = w := by rw [hw, h.idem]
  have hPv : Matrix.mulVec (Matrix.of P) v = v := by rw [hv, Matrix.mulVec_smul, hPw]
  have hnew : ∀ u, Matrix.mulVec (Matrix.of (fun i j => P i j - outer v v i j) : MM) u
      = Matrix.mulVec (Matrix.of P) u - (dotProduct v u) • v := by
    intro u
    funext i
    simp only [Matrix.mulVec, dotProduct, Matrix.of_apply, outer, Pi.sub_apply, Pi.smul_apply, smul_eq_mul, Fin.sum_univ_three]
    ring
  have hvc : dotProduct v (column R k) = length w := by
    have e1 : dotProduct w (column R k) = dotProduct w w := by
      conv_rhs => rw [hw, h.adj, h.idem, ← h.adj, ← hw]
    rw [hv, smul_dotProduct, e1, ← hlen, smul_eq_mul]
    field_simp
  refine ⟨?_, ?_, ?_, ?_⟩
  · ext i j
    have := congrFun (congrFun h.symm i) j
    simp only [Matrix.transpose_apply, Matrix.of_apply] at this ⊢
    rw [this]; unfold outer; ring
  · intro j hj
    rw [hnew]
    by_cases hjk : j = k
    · subst hjk
      rw [hvc, ← hw, hv, smul_smul, mul_one_div_cancel hl0, one_smul, sub_self]
    · rcases hj with hj | hj
      · rw [h.kill j hj]
        have : dotProduct v (column R j) = 0 := by
          rw [← hPv, h.adj, h.kill j hj, dotProduct_zero]
        rw [this, zero_smul, sub_zero]
      · exact absurd hj hjk
  · intro u
    obtain ⟨c, hc, e⟩ := h.span u
    obtain ⟨c', hc', e'⟩ := h.span (column R k)
    refine ⟨c + (dotProduct v u * (1 / length w)) • (Pi.single k 1 - c'), ?_, ?_⟩
    · intro j hj
      have h1 : ¬ F j := fun h => hj (Or.inl h)
      have h2 : j ≠ k := fun h => hj (Or.inr h)
      simp [hc j h1, hc' j h1, h2]
    · rw [hnew, Matrix.mulVec_add, Matrix.mulVec_smul, Matrix.mulVec_sub, Matrix.mulVec_single_one, ← e, ← e']
      rw [← hw, show (Matrix.of R).col k = column R k by rw [col_eq]; rfl]
      rw [sub_sub_cancel, mul_smul, ← hv]
      abel
  · intro u
    have hap : ∀ (l : List (V3 ℝ)) (u : V3 ℝ), removeAll (l ++ [v]) u = removeAll l u - (dotProduct v (removeAll l u)) • v := by
      intro l
      induction l with
      | nil => intro u; funext i; show u i - v i * dot v u = u i - dotProduct v u * v i; rw [dot_eq]; ring
      | cons a l ih => intro u; exact ih _
    rw [hap, h.seq, hnew, ← h.adj, hPv]

theorem freeLoop_spec {R : Mat ℝ} (hR : det R ≠ 0) (fixed : Fin 3 → Bool) (ks : List (Fin 3)) : ∀ (F : Fin 3 → Prop) vs P,
    FreeP R F vs P → (∀ k ∈ ks, ¬ F k) → ks.Nodup →
    FreeP R (fun j => F j ∨ (j ∈ ks ∧ fixed j = true)) (freeLoop R fixed ks vs P).1 (freeLoop R fixed ks vs P).2 := by
  induction ks with
  | nil =>
    intro F vs P h _ _
    simpa [freeLoop] using h
  | cons k ks ih =>
    intro F vs P h hF hn
    rw [List.nodup_cons] at hn
    unfold freeLoop
    by_cases hk : fixed k = true
    · rw [if_pos hk]
      have h1 := ih (fun j => F j ∨ j = k) _ _ (h.extend hR k (hF k (by simp))) ?_ hn.2
      · have e : (fun j => F j ∨ (j ∈ k :: ks ∧ fixed j = true)) = (fun j => (F j ∨ j = k) ∨ (j ∈ ks ∧ fixed j = true)) := by
          funext j
          apply propext
          rw [List.mem_cons]
          constructor
          · rintro (h | ⟨h | h, h'⟩)
            · exact Or.inl (Or.inl h)
            · exact Or.inl (Or.inr h)
            · exact Or.inr ⟨h, h'⟩
          · rintro ((h | h) | ⟨h, h'⟩)
            · exact Or.inl h
            · exact Or.inr ⟨Or.inl h, h ▸ hk⟩
            · exact Or.inr ⟨Or.inr h, h'⟩
        rw [e]; exact h1
      · intro j hj hjF
        rcases hjF with hjF | hjF
        · exact hF j (List.mem_cons_of_mem _ hj) hjF
        · exact hn.1 (hjF ▸ hj)
    · rw [if_neg hk]
      have h1 := ih F vs P h (fun j hj => hF j (List.mem_cons_of_mem _ hj)) hn.2
      have e : (fun j => F j ∨ (j ∈ k :: ks ∧ fixed j = true)) = (fun j => F j ∨ (j ∈ ks ∧ fixed j = true)) := by
        funext j
        apply propext
        rw [List.mem_cons]
        constructor
        · rintro (h | ⟨h | h, h'⟩)
          · exact Or.inl h
          · exact absurd (h ▸ h') hk
          · exact Or.inr ⟨h, h'⟩
        · rintro (h | ⟨h, h'⟩)
          · exact Or.inl h
          · exact Or.inr ⟨Or.inr h, h'⟩
      rw [e]; exact h1

theorem pfree_spec {R : Mat ℝ} (hR : det R ≠ 0) (fixed : Fin 3 → Bool) {P : Mat ℝ} (h : pfree R fixed = .ok P) :
    ∃ vs, FreeP R (fun j => fixed j = true) vs P := by
  have h0 : FreeP R (fun _ => False) [] (diag 1 1 1) := by
    refine ⟨by rw [diag_one, Matrix.transpose_one], fun k hk => hk.elim, fun u => ⟨0, fun _ _ => rfl, ?_⟩, fun u => ?_⟩
    · rw [diag_one, Matrix.one_mulVec, Matrix.mulVec_zero, sub_self]
    · rw [diag_one, Matrix.one_mulVec]; rfl
  have h1 := freeLoop_spec hR fixed [0, 1, 2] _ _ _ h0 (fun _ _ h => h) (by decide)
  have e : (fun j => False ∨ (j ∈ [(0 : Fin 3), 1, 2] ∧ fixed j = true)) = (fun j => fixed j = true) := by
    funext j
    apply propext
    have : j ∈ [(0 : Fin 3), 1, 2] := by revert j; decide
    simp [this]
  rw [e] at h1
  unfold pfree at h
  simp only at h
  split at h
  · exact absurd h (by simp)
  · injection h with h
    exact ⟨_, h ▸ h1⟩


/-- Matrix form of the Cartesian rotation. -/
def cart (R : Mat ℝ) (rot : Mat Int) : MM := Matrix.of R * Matrix.of (castMat rot : Mat ℝ) * (Matrix.of R)⁻¹

theorem inv_eq {R : Mat ℝ} : Matrix.of (Basis.inv R) = (Matrix.of R)⁻¹ := by
  unfold Basis.inv
  rw [smul_eq, adjugate_eq, Matrix.inv_def, det_eq, one_div, Ring.inverse_eq_inv']

theorem unit {R : Mat ℝ} (hR : det R ≠ 0) : IsUnit (Matrix.of R).det := by
  rw [det_eq] at hR; exact hR.isUnit

theorem cart_mul {R : Mat ℝ} (hR : det R ≠ 0) (rot : Mat Int) :
    cart R rot * Matrix.of R = Matrix.of R * Matrix.of (castMat rot : Mat ℝ) := by
  unfold cart
  rw [Matrix.mul_assoc, Matrix.nonsing_inv_mul _ (unit hR), Matrix.mul_one]

theorem cart_unique {R : Mat ℝ} (hR : det R ≠ 0) (rot : Mat Int) (C : MM) (h : C * Matrix.of R = Matrix.of R * Matrix.of (castMat rot : Mat ℝ)) :
    C = cart R rot := by
  unfold cart
  rw [← h, Matrix.mul_assoc, Matrix.mul_nonsing_inv _ (unit hR), Matrix.mul_one]

theorem symmetry_iff {R : Mat ℝ} (hR : det R ≠ 0) (rot : Mat Int) :
    LatticeSymmetry R rot ↔ (cart R rot).transpose * cart R rot = 1 := by
  have e : ∀ x : V3 ℝ, mulMV R (mulMV (castMat rot) x) = Matrix.mulVec (cart R rot) (mulMV R x) := by
    intro x
    rw [mulMV_eq, mulMV_eq, mulMV_eq, Matrix.mulVec_mulVec, Matrix.mulVec_mulVec, cart_mul hR]
  constructor
  · intro h
    have h1 : ∀ y : V3 ℝ, dotProduct (Matrix.mulVec (cart R rot) y) (Matrix.mulVec (cart R rot) y) = dotProduct y y := by
      intro y
      have := h (Matrix.mulVec (Matrix.of R)⁻¹ y)
      have h3 : mulMV R (Matrix.mulVec (Matrix.of R)⁻¹ y) = y := by
        rw [mulMV_eq, Matrix.mulVec_mulVec, Matrix.mul_nonsing_inv _ (unit hR), Matrix.one_mulVec]
      rw [e, h3, dot_eq, dot_eq] at this
      exact this
    generalize cart R rot = C at h1
    have h2 : ∀ y z : V3 ℝ, dotProduct (Matrix.mulVec C y) (Matrix.mulVec C z) = dotProduct y z := by
      intro y z
      have := h1 (y + z)
      rw [Matrix.mulVec_add] at this
      simp only [add_dotProduct, dotProduct_add] at this
      have a := h1 y
      have b := h1 z
      have c := dotProduct_comm (Matrix.mulVec C z) (Matrix.mulVec C y)
      have d := dotProduct_comm z y
      linarith
    ext i j
    have := h2 (Pi.single i 1) (Pi.single j 1)
    rw [Matrix.mulVec_single_one, Matrix.mulVec_single_one, single_one_dotProduct] at this
    rw [Matrix.mul_apply, Matrix.one_apply]
    rw [show (∑ k, C.transpose i k * C k j) = dotProduct (C.col i) (C.col j) from rfl, this, Pi.single_apply]
  · intro h x
    rw [e, dot_eq, dot_eq, Matrix.dotProduct_mulVec, Matrix.vecMul_mulVec, h, Matrix.vecMul_one]

/-- The projector commutes with rotations which do not mix free and fixed lattice vectors. -/
theorem commute_P {R : Mat ℝ} (hR : det R ≠ 0) {F vs P} (hP : FreeP R F vs P) (rot : Mat Int) (hm : ∀ i j, rot i j ≠ 0 → (F i ↔ F j))
    : Matrix.of P * cart R rot = Matrix.of P * cart R rot * Matrix.of P := by
  have h : ∀ u, Matrix.mulVec (Matrix.of P * cart R rot) (u - Matrix.mulVec (Matrix.of P) u) = 0 := by
    intro u
    obtain ⟨c, hc, e⟩ := hP.span u
    rw [e, Matrix.mulVec_mulVec, Matrix.mul_assoc, cart_mul hR, ← Matrix.mul_assoc, ← Matrix.mulVec_mulVec, ← Matrix.mulVec_mulVec]
    refine hP.killR _ fun k hk => ?_
    simp only [Matrix.mulVec, dotProduct, Matrix.of_apply, castMat]
    refine Finset.sum_eq_zero fun j _ => ?_
    by_cases hj : F j
    · have : rot k j = 0 := by
        by_contra h0
        exact hk ((hm k j h0).mpr hj)
      rw [this]; simp
    · rw [hc j hj, mul_zero]
  refine Matrix.ext_of_mulVec_single fun i => ?_
  have := h (Pi.single i 1)
  rw [Matrix.mulVec_sub, sub_eq_zero, Matrix.mulVec_mulVec] at this
  exact this

/-- Everything known about the set-up. -/
structure Setup (R0 : Mat ℝ) (fixed : Fin 3 → Bool) (P : Mat ℝ) (sym : List (Op ℝ)) : Prop where
  det : det R0 ≠ 0
  P : pfree R0 fixed = .ok P
  group : IsSpaceGroup sym
  symm : ∀ op ∈ sym, LatticeSymmetry R0 op.rot
  fixed : ∀ op ∈ sym, ∀ i j, op.rot i j ≠ 0 → fixed i = fixed j

/-- The lattices that can be reached. -/
structure Reach (R0 : Mat ℝ) (fixed : Fin 3 → Bool) (sym : List (Op ℝ)) (R : Mat ℝ) : Prop where
  det : M3.det R ≠ 0
  same : ∀ k, fixed k = true → SameVector R R0 k
  cart : ∀ op ∈ sym, cart R op.rot = cart R0 op.rot

section
variable {R0 : Mat ℝ} {fixed : Fin 3 → Bool} {P : Mat ℝ} {sym : List (Op ℝ)}

theorem PQ (hS : Setup R0 fixed P sym) {op : Op ℝ} (ho : op ∈ sym) :
    Matrix.of P * cart R0 op.rot = cart R0 op.rot * Matrix.of P := by
  obtain ⟨vs, hP⟩ := pfree_spec hS.det fixed hS.P
  obtain ⟨mul, one, inv, hmul, hone, linj, rinj, minv, invm⟩ := group_table hS.group
  obtain ⟨q, hq, rfl⟩ := List.mem_iff_getElem.1 ho
  have ho' : sym[inv ⟨q, hq⟩] ∈ sym := List.getElem_mem _
  have hm : ∀ op ∈ sym, ∀ i j, op.rot i j ≠ 0 → (fixed i = true ↔ fixed j = true) := by
    intro op ho i j h; rw [hS.fixed op ho i j h]
  have h1 := commute_P hS.det hP sym[q].rot (hm _ ho)
  have h2 := commute_P hS.det hP sym[inv ⟨q, hq⟩].rot (hm _ ho')
  have hort := (symmetry_iff hS.det _).1 (hS.symm _ ho)
  have hrot : cart R0 sym[q].rot * cart R0 sym[inv ⟨q, hq⟩].rot = 1 := by
    have e1 : mulMM sym[q].rot sym[inv ⟨q, hq⟩].rot = diag 1 1 1 := by
      have h3 := (hmul ⟨q, hq⟩ (inv ⟨q, hq⟩)).1
      simp only [minv] at h3
      exact h3.symm.trans hone.1
    have e2 : (Matrix.of (castMat sym[q].rot : Mat ℝ) * Matrix.of (castMat sym[inv ⟨q, hq⟩].rot : Mat ℝ) : MM) = 1 := by
      have : (Matrix.of (castMat (mulMM sym[q].rot sym[inv ⟨q, hq⟩].rot)) : MM)
          = Matrix.of (castMat sym[q].rot) * Matrix.of (castMat sym[inv ⟨q, hq⟩].rot) := by
        rw [castMat_eq, mulMM_eq, Matrix.map_mul]; rfl
      rw [← this, e1, castMat_eq, diag_one]
      simp
    unfold cart
    calc _ = Matrix.of R0 * Matrix.of (castMat sym[q].rot : Mat ℝ) * ((Matrix.of R0)⁻¹ * Matrix.of R0) * Matrix.of (castMat sym[inv ⟨q, hq⟩].rot : Mat ℝ) * (Matrix.of R0)⁻¹ := by
          simp only [Matrix.mul_assoc]
      _ = Matrix.of R0 * (Matrix.of (castMat sym[q].rot : Mat ℝ) * Matrix.of (castMat sym[inv ⟨q, hq⟩].rot : Mat ℝ)) * (Matrix.of R0)⁻¹ := by
          rw [Matrix.nonsing_inv_mul _ (unit hS.det), Matrix.mul_one]; simp only [Matrix.mul_assoc]
      _ = 1 := by rw [e2, Matrix.mul_one, Matrix.mul_nonsing_inv _ (unit hS.det)]
  have hT : (cart R0 sym[q].rot).transpose = cart R0 sym[inv ⟨q, hq⟩].rot := by
    have := congrArg (fun M => (cart R0 sym[q].rot).transpose * M) hrot
    simp only [← Matrix.mul_assoc, hort, Matrix.one_mul, Matrix.mul_one] at this
    exact this.symm
  rw [← hT] at h2
  have h3 := congrArg Matrix.transpose h2
  simp only [Matrix.transpose_mul, Matrix.transpose_transpose, hP.symm] at h3
  rw [h1, Matrix.mul_assoc]
  exact h3.symm

theorem constrain_eq {R : Mat ℝ} (hr : Reach R0 fixed sym R) (d : Mat ℝ) :
    Matrix.of (constrain R P sym d) = (1 / (sym.length : ℝ)) • ∑ q : Fin sym.length,
      cart R0 sym[q].rot * (Matrix.of P * ((1/2 : ℝ) • (Matrix.of d + (Matrix.of d).transpose)) * Matrix.of P) * (cart R0 sym[q].rot).transpose := by
  unfold constrain
  simp only
  rw [tensor_eq, inv_eq]
  congr 1
  refine Finset.sum_congr rfl fun q _ => ?_
  have : Matrix.of R * Matrix.of (castMat sym[q].rot : Mat ℝ) * (Matrix.of R)⁻¹ = cart R0 sym[q].rot := hr.cart _ (List.getElem_mem _)
  rw [this, mulMM_eq, mulMM_eq]
  rfl

theorem constrain_symm {R : Mat ℝ} (hS : Setup R0 fixed P sym) (hr : Reach R0 fixed sym R) (d : Mat ℝ) :
    (Matrix.of (constrain R P sym d)).transpose = Matrix.of (constrain R P sym d) := by
  obtain ⟨vs, hP⟩ := pfree_spec hS.det fixed hS.P
  rw [constrain_eq hr, Matrix.transpose_smul, Matrix.transpose_sum]
  congr 1
  refine Finset.sum_congr rfl fun q _ => ?_
  simp only [Matrix.transpose_mul, Matrix.transpose_transpose, Matrix.transpose_smul, Matrix.transpose_add, hP.symm]
  rw [add_comm (Matrix.of d).transpose]
  simp only [Matrix.mul_assoc]

theorem constrain_inv {R : Mat ℝ} (hS : Setup R0 fixed P sym) (hr : Reach R0 fixed sym R) (d : Mat ℝ) :
    InvariantTensor (Matrix.of R) sym (Matrix.of (constrain R P sym d)) := by
  refine (C33_tensor R (Basis.inv R) ?_ sym hS.group _).1
  rw [inv_eq, Matrix.mul_nonsing_inv _ (unit hr.det)]

theorem constrain_kill {R : Mat ℝ} (hS : Setup R0 fixed P sym) (hr : Reach R0 fixed sym R) (d : Mat ℝ) (k : Fin 3) (hk : fixed k = true) :
    Matrix.mulVec (Matrix.of (constrain R P sym d)) (column R0 k) = 0 := by
  obtain ⟨vs, hP⟩ := pfree_spec hS.det fixed hS.P
  rw [constrain_eq hr, Matrix.smul_mulVec, Matrix.sum_mulVec]
  rw [Finset.sum_eq_zero, smul_zero]
  intro q _
  have h1 := PQ hS (op := sym[q]) (List.getElem_mem _)
  have h2 := congrArg Matrix.transpose h1
  simp only [Matrix.transpose_mul, hP.symm] at h2
  rw [Matrix.mul_assoc (cart R0 sym[q].rot), Matrix.mul_assoc (Matrix.of P * _), ← h2, ← Matrix.mul_assoc, ← Matrix.mul_assoc,
    ← Matrix.mulVec_mulVec, hP.kill k hk, Matrix.mulVec_zero]

theorem reach_col {R : Mat ℝ} (hr : Reach R0 fixed sym R) (k : Fin 3) (hk : fixed k = true) : column R k = column R0 k := by
  rw [col_eq, col_eq]; funext i; exact hr.same k hk i

theorem comm_cart {R : Mat ℝ} (hS : Setup R0 fixed P sym) (hr : Reach R0 fixed sym R) (d : Mat ℝ) {op : Op ℝ} (ho : op ∈ sym) :
    cart R0 op.rot * Matrix.of (constrain R P sym d) = Matrix.of (constrain R P sym d) * cart R0 op.rot := by
  have h := constrain_inv hS hr d op ho (cart R op.rot) (cart_mul hr.det _)
  rw [hr.cart op ho] at h
  have hort := (symmetry_iff hS.det _).1 (hS.symm _ ho)
  have := congrArg (fun M => M * cart R0 op.rot) h
  rw [Matrix.mul_assoc, hort, Matrix.mul_one] at this
  exact this

theorem reach_step {R R' : Mat ℝ} (hS : Setup R0 fixed P sym) (hr : Reach R0 fixed sym R) (d : Mat ℝ) (alpha : ℝ)
    (h : step R (constrain R P sym d) alpha = .ok R') : Reach R0 fixed sym R' := by
  unfold step at h
  simp only at h
  split at h
  · exact absurd h (by simp)
  rename_i hd
  injection h with h
  have hm : Matrix.of R' = (1 + alpha • Matrix.of (constrain R P sym d)) * Matrix.of R := by
    rw [← h, mulMM_eq, ← diag_one]; rfl
  refine ⟨h ▸ hd, ?_, ?_⟩
  · intro k hk i
    have h1 : Matrix.mulVec (Matrix.of R') (Pi.single k 1) = column R0 k := by
      rw [hm, ← Matrix.mulVec_mulVec, Matrix.mulVec_single_one, show (Matrix.of R).col k = column R0 k by
        rw [← reach_col hr k hk, col_eq]; rfl]
      rw [Matrix.add_mulVec, Matrix.smul_mulVec, constrain_kill hS hr d k hk, smul_zero, add_zero, Matrix.one_mulVec]
    rw [Matrix.mulVec_single_one] at h1
    have := congrFun h1 i
    rw [col_eq] at this
    exact this
  · intro op ho
    symm
    refine cart_unique (h ▸ hd) _ _ ?_
    rw [hm, Matrix.mul_assoc, ← cart_mul hr.det, hr.cart op ho, ← Matrix.mul_assoc, ← Matrix.mul_assoc]
    congr 1
    rw [Matrix.mul_add, Matrix.add_mul, Matrix.mul_one, Matrix.one_mul, Matrix.mul_smul, Matrix.smul_mul, comm_cart hS hr d ho]

theorem reach_run (hS : Setup R0 fixed P sym) (steps : List (Mat ℝ × ℝ)) : ∀ R, Reach R0 fixed sym R → ∀ R', run P sym steps R = .ok R' →
    Reach R0 fixed sym R' := by
  induction steps with
  | nil => intro R hr R' h; injection h with h; exact h ▸ hr
  | cons a steps ih =>
    intro R hr R' h
    obtain ⟨d, alpha⟩ := a
    unfold run at h
    cases hs : step R (constrain R P sym d) alpha with
    | error e => rw [hs] at h; exact absurd h (by simp)
    | ok R1 =>
      rw [hs] at h
      exact ih R1 (reach_step hS hr d alpha hs) R' h

theorem reach_start (hS : Setup R0 fixed P sym) : Reach R0 fixed sym R0 := ⟨hS.det, fun _ _ _ => rfl, fun _ _ => rfl⟩

end

theorem freeLoop_length (R : Mat ℝ) (fixed : Fin 3 → Bool) (ks : List (Fin 3)) : ∀ vs P,
    (freeLoop R fixed ks vs P).1.length = vs.length + (ks.filter fixed).length := by
  induction ks with
  | nil => intro vs P; simp [freeLoop]
  | cons k ks ih =>
    intro vs P
    unfold freeLoop
    cases hk : fixed k with
    | true => simp only [if_true]; rw [ih]; simp [hk]; omega
    | false => simp only [Bool.false_eq_true, if_false]; rw [ih]; simp [hk]

/-- **C68 (refusal).** Lattice minimisation is refused exactly when all three lattice vectors are fixed. -/
theorem C68_refuse (R : Mat ℝ) (fixed : Fin 3 → Bool) : pfree R fixed = .error .die ↔ ∀ k, fixed k = true := by
  have h := freeLoop_length R fixed [0, 1, 2] [] (diag 1 1 1)
  unfold pfree
  simp only
  have e : (freeLoop R fixed [0, 1, 2] [] (diag 1 1 1)).1.length = 3 ↔ ∀ k, fixed k = true := by
    rw [h]
    simp only [Fin.forall_fin_succ, Fin.forall_fin_zero, List.filter]
    cases h0 : fixed 0 <;> cases h1 : fixed 1 <;> cases h2 : fixed 2 <;> simp_all
  rw [← e]
  split <;> simp_all

/-- **C68.** However the lattice is moved — any number of steps of any sizes along any directions, each constrained before it
is used — lattice vectors which are truncated or have zero move scale never change, and every symmetry operation remains a
symmetry of the lattice.  The hypotheses are what the code checks before it starts (`scalesOk`, and the test on truncated
directions in `getSymmetries`, LatticeUtils.cpp:90-95) and that the operations are symmetries of the initial lattice. -/
theorem C68_history (R0 : Mat ℝ) (scale : Fin 3 → ℝ) (trunc : Fin 3 → Bool) (P : Mat ℝ) (sym : List (Op ℝ)) (hR : det R0 ≠ 0)
    (hP : pfree R0 (fun k => decide (scale k = 0) || trunc k) = .ok P) (hg : IsSpaceGroup sym)
    (hs : ∀ op ∈ sym, LatticeSymmetry R0 op.rot) (hsc : scalesOk sym scale)
    (htr : ∀ op ∈ sym, ∀ i j, op.rot i j ≠ 0 → trunc i = trunc j)
    (steps : List (Mat ℝ × ℝ)) (R : Mat ℝ) (h : run P sym steps R0 = .ok R) :
    (∀ k, scale k = 0 ∨ trunc k = true → SameVector R R0 k) ∧ ∀ op ∈ sym, LatticeSymmetry R op.rot := by
  have hS : Setup R0 (fun k => decide (scale k = 0) || trunc k) P sym :=
    ⟨hR, hP, hg, hs, fun op ho i j hij => by rw [hsc op ho i j hij, htr op ho i j hij]⟩
  have hr := reach_run hS steps R0 (reach_start hS) R h
  refine ⟨fun k hk => hr.same k (by simpa using hk), fun op ho => ?_⟩
  rw [symmetry_iff hr.det, hr.cart op ho, ← symmetry_iff hR]
  exact hs op ho

/-- **C68.** At every lattice so reached, constraining a direction is the orthogonal projection onto the allowed strains: the
result is allowed, allowed strains are unchanged, and it is self-adjoint for the inner product the minimiser uses. -/
theorem C68_constrain (R0 : Mat ℝ) (fixed : Fin 3 → Bool) (P : Mat ℝ) (sym : List (Op ℝ)) (hS : Setup R0 fixed P sym)
    (steps : List (Mat ℝ × ℝ)) (R : Mat ℝ) (h : run P sym steps R0 = .ok R) :
    (∀ d, Allowed R fixed sym (constrain R P sym d)) ∧
    (∀ d, Allowed R fixed sym d → constrain R P sym d = d) ∧
    (∀ x y, sdot (constrain R P sym x) y = sdot x (constrain R P sym y)) := by
  have hr := reach_run hS steps R0 (reach_start hS) R h
  obtain ⟨vs, hP⟩ := pfree_spec hS.det fixed hS.P
  refine ⟨fun d => ⟨?_, ?_, constrain_inv hS hr d⟩, fun d hd => ?_, fun x y => ?_⟩
  · intro i j
    have := congrFun (congrFun (constrain_symm hS hr d) j) i
    exact this
  · intro k hk i
    rw [mulMV_eq, reach_col hr k hk, constrain_kill hS hr d k hk]; rfl
  · have hsym : (Matrix.of d).transpose = Matrix.of d := by ext i j; exact hd.symm j i
    have hk : Matrix.of d * Matrix.of P = Matrix.of d := by
      refine hP.absorb d fun k hk => ?_
      rw [← reach_col hr k hk, ← mulMV_eq]; funext i; exact hd.fixed k hk i
    have hk' : Matrix.of P * Matrix.of d = Matrix.of d := by
      have := congrArg Matrix.transpose hk
      rw [Matrix.transpose_mul, hP.symm, hsym] at this
      exact this
    have hmid : ∀ i j, mulMM (mulMM P (fun i j => (1/2) * (d i j + transpose d i j))) P i j = d i j := by
      have e1 : (fun i j => (1/2) * (d i j + transpose d i j)) = d := by
        funext i j; show 1/2 * (d i j + d j i) = d i j; rw [hd.symm j i]; ring
      rw [e1]
      have : Matrix.of (mulMM (mulMM P d) P) = Matrix.of d := by rw [mulMM_eq, mulMM_eq, hk', hk]
      intro i j; exact congrFun (congrFun this i) j
    unfold constrain
    simp only
    rw [show mulMM (mulMM P (fun i j => (1/2) * (d i j + transpose d i j))) P = d by funext i j; exact hmid i j]
    refine (C33_tensor R (Basis.inv R) ?_ sym hS.group _).2.1 hd.invariant
    rw [inv_eq, Matrix.mul_nonsing_inv _ (unit hr.det)]
  · have ed : ∀ x y : Mat ℝ, sdot x y = Matrix.trace (Matrix.of x * (Matrix.of y).transpose) := by
      intro x y
      unfold sdot
      rw [← transpose_eq, ← mulMM_eq]
      simp [trace, Matrix.trace, Fin.sum_univ_three]
    have key : ∀ x y, sdot (constrain R P sym x) (constrain R P sym y) = sdot x (constrain R P sym y) := by
      intro x y
      rw [ed, ed, constrain_symm hS hr y]
      have hWP : Matrix.of (constrain R P sym y) * Matrix.of P = Matrix.of (constrain R P sym y) :=
        hP.absorb _ fun k hk => constrain_kill hS hr y k hk
      have hW := constrain_symm hS hr y
      have hC : ∀ q : Fin sym.length, cart R0 sym[q].rot * Matrix.of (constrain R P sym y) = Matrix.of (constrain R P sym y) * cart R0 sym[q].rot :=
        fun q => comm_cart hS hr y (List.getElem_mem _)
      have hO : ∀ q : Fin sym.length, (cart R0 sym[q].rot).transpose * cart R0 sym[q].rot = 1 :=
        fun q => (symmetry_iff hS.det _).1 (hS.symm _ (List.getElem_mem _))
      generalize Matrix.of (constrain R P sym y) = W at hWP hW hC
      have hPW : Matrix.of P * W = W := by
        have := congrArg Matrix.transpose hWP
        rw [Matrix.transpose_mul, hP.symm, hW] at this
        exact this
      have hn : (sym.length : ℝ) ≠ 0 := by
        obtain ⟨p, hp, _⟩ := hS.group.one
        have : 0 < sym.length := List.length_pos_of_mem hp
        exact_mod_cast this.ne'
      rw [constrain_eq hr, Matrix.smul_mul, Matrix.sum_mul, Matrix.trace_smul, Matrix.trace_sum]
      have term : ∀ q : Fin sym.length, Matrix.trace (cart R0 sym[q].rot * (Matrix.of P * ((1/2 : ℝ) • (Matrix.of x + (Matrix.of x).transpose)) * Matrix.of P)
          * (cart R0 sym[q].rot).transpose * W) = Matrix.trace (Matrix.of x * W) := by
        intro q
        generalize hX : (1/2 : ℝ) • (Matrix.of x + (Matrix.of x).transpose) = X
        have e1 := hC q
        have e2 := hO q
        generalize cart R0 sym[q].rot = C at e1 e2
        rw [Matrix.mul_assoc, Matrix.mul_assoc, Matrix.trace_mul_comm]
        rw [show Matrix.of P * X * Matrix.of P * (C.transpose * W) * C = Matrix.of P * X * Matrix.of P * (C.transpose * (W * C)) by
          simp only [Matrix.mul_assoc]]
        rw [← e1, ← Matrix.mul_assoc C.transpose, e2, Matrix.one_mul, Matrix.mul_assoc (Matrix.of P * X), hPW, Matrix.mul_assoc,
          Matrix.trace_mul_comm, Matrix.mul_assoc, hWP, ← hX, Matrix.smul_mul, Matrix.trace_smul, Matrix.add_mul, Matrix.trace_add]
        have e3 : Matrix.trace ((Matrix.of x).transpose * W) = Matrix.trace (Matrix.of x * W) := by
          rw [← Matrix.trace_transpose, Matrix.transpose_mul, Matrix.transpose_transpose, hW, Matrix.trace_mul_comm]
        rw [e3, smul_eq_mul]; ring
      rw [Finset.sum_congr rfl fun q _ => term q, Finset.sum_const, Finset.card_univ, Fintype.card_fin, nsmul_eq_mul, smul_eq_mul, ← mul_assoc,
        one_div, inv_mul_cancel₀ hn, one_mul]
    have comm : ∀ x y, sdot x y = sdot y x := by
      intro x y; rw [ed, ed, ← Matrix.trace_transpose, Matrix.transpose_mul, Matrix.transpose_transpose]
    rw [← key x y, comm _ y, ← key y x, comm]

/-! ## Going back -/

/-- **C68 violated.** A step along a direction followed by the same step backwards never restores the lattice: the factors
multiply, `(1 - α² d²) R`.  The line minimisers and the undoing of failed steps assume that it does. -/
theorem C68_undo_violation (R d : Mat ℝ) (alpha : ℝ) (hR : det R ≠ 0) (hs : ∀ i j, d i j = d j i) (hd : ∃ i j, d i j ≠ 0) (ha : alpha ≠ 0)
    (R1 R2 : Mat ℝ) (h1 : step R d alpha = .ok R1) (h2 : step R1 d (-alpha) = .ok R2) : R2 ≠ R := by
  rintro rfl
  have hm : ∀ (A B : Mat ℝ) (a : ℝ), step A d a = .ok B → Matrix.of B = (1 + a • Matrix.of d) * Matrix.of A := by
    intro A B a h
    unfold step at h
    simp only at h
    split at h
    · exact absurd h (by simp)
    injection h with h
    rw [← h, mulMM_eq, ← diag_one]; rfl
  have e := hm _ _ _ h2
  rw [hm _ _ _ h1, ← Matrix.mul_assoc] at e
  have e2 := congrArg (fun M => M * (Matrix.of R2)⁻¹) e
  simp only [Matrix.mul_assoc] at e2
  rw [Matrix.mul_nonsing_inv _ (unit hR), Matrix.mul_one] at e2
  have e3 : alpha • alpha • (Matrix.of d * Matrix.of d) = 0 := by
    have : (1 + -alpha • Matrix.of d) * (1 + alpha • Matrix.of d) = 1 - alpha • alpha • (Matrix.of d * Matrix.of d) := by
      rw [neg_smul, Matrix.add_mul, Matrix.mul_add, Matrix.mul_add, Matrix.mul_one, Matrix.one_mul, Matrix.mul_one, Matrix.neg_mul,
        Matrix.smul_mul, Matrix.mul_smul]
      abel
    rw [this] at e2
    exact (sub_eq_self.mp e2.symm)
  obtain ⟨i, j, hij⟩ := hd
  have e4 := congrFun (congrFun e3 i) i
  simp only [Matrix.smul_apply, Matrix.mul_apply, Matrix.of_apply, smul_eq_mul, Matrix.zero_apply] at e4
  have e5 : ∑ k, d i k * d k i = 0 := by
    rcases mul_eq_zero.mp e4 with h | h
    · exact absurd h ha
    · rcases mul_eq_zero.mp h with h | h
      · exact absurd h ha
      · exact h
  have e6 : ∑ k, d i k * d i k = 0 := by rw [← e5]; exact Finset.sum_congr rfl fun k _ => by rw [hs k i]
  have := (Finset.sum_eq_zero_iff_of_nonneg fun k _ => mul_self_nonneg (d i k)).mp e6 j (Finset.mem_univ _)
  exact hij (mul_self_eq_zero.mp this)

/-! ## A concrete case: the unit cube with the third vector fixed, identity and inversion -/

theorem det_cube : det (diag 1 1 1 : Mat ℝ) = 1 := by
  simp [det, box, M3.dot, cross, row, vec, diag]

/-- The projector for the cube with the third vector fixed. -/
theorem cube_pfree : pfree (diag 1 1 1) (fun k => decide (k = 2)) = .ok (diag 1 1 0) := by
  have hc : column (diag 1 1 1 : Mat ℝ) 2 = vec 0 0 1 := by
    funext i; match i with | 0 => simp [column, diag, vec] | 1 => simp [column, diag, vec] | 2 => simp [column, diag, vec]
  have hl : length (vec 0 0 1) = 1 := by simp [length, M3.dot, vec]
  unfold pfree
  simp [freeLoop, removeAll, hc, hl]
  funext i j
  match i, j with
  | 0, 0 => simp [diag, outer, vec] | 0, 1 => simp [diag, outer, vec] | 0, 2 => simp [diag, outer, vec]
  | 1, 0 => simp [diag, outer, vec] | 1, 1 => simp [diag, outer, vec] | 1, 2 => simp [diag, outer, vec]
  | 2, 0 => simp [diag, outer, vec] | 2, 1 => simp [diag, outer, vec] | 2, 2 => simp [diag, outer, vec]

theorem cube_setup : Setup (diag 1 1 1) (fun k => decide (k = 2)) (diag 1 1 0) [one', onMesh] := by
  refine ⟨by rw [det_cube]; norm_num, cube_pfree, onMesh_group, ?_, ?_⟩
  · intro op hop x
    have hR : ∀ y : V3 ℝ, mulMV (diag 1 1 1) y = y := by
      intro y; rw [mulMV_eq, diag_one, Matrix.one_mulVec]
    rw [hR, hR]
    simp only [List.mem_cons, List.not_mem_nil, or_false] at hop
    rcases hop with rfl | rfl
    · have : mulMV (castMat one'.rot) x = x := mulMV_one x
      rw [this]
    · have : mulMV (castMat onMesh.rot) x = fun i => - x i := by
        funext i; match i with
        | 0 => simp [mulMV, castMat, onMesh, diag, vec] | 1 => simp [mulMV, castMat, onMesh, diag, vec] | 2 => simp [mulMV, castMat, onMesh, diag, vec]
      rw [this]; simp only [M3.dot]; ring
  · intro op hop i j hij
    simp only [List.mem_cons, List.not_mem_nil, or_false] at hop
    have : i = j := by
      by_contra hne
      apply hij
      rcases hop with rfl | rfl
      · show diag 1 1 1 i j = 0; simp [diag, hne]
      · show diag (-1) (-1) (-1) i j = 0; simp [diag, hne]
    rw [this]

/-- The hypotheses of the theorems above are met, with a step which does change the lattice: stretching along x by a tenth. -/
example : scalesOk [one', onMesh] (vec 1 1 0) ∧ Allowed (diag 1 1 1) (fun k => decide (k = 2)) [one', onMesh] (diag 1 0 0) ∧
    run (diag 1 1 0) [one', onMesh] [(diag 1 0 0, 1/10)] (diag 1 1 1) = .ok (diag (11/10) 1 1) := by
  have hal : Allowed (diag 1 1 1) (fun k => decide (k = 2)) [one', onMesh] (diag 1 0 0) := by
    refine ⟨fun i j => ?_, fun k hk i => ?_, ?_⟩
    · by_cases h : i = j
      · subst h; rfl
      · simp [diag, h, Ne.symm h]
    · have : k = 2 := by simpa using hk
      subst this
      match i with
      | 0 => simp [mulMV, column, diag, vec] | 1 => simp [mulMV, column, diag, vec] | 2 => simp [mulMV, column, diag, vec]
    · intro op hop C hC
      have hC' : C = Matrix.of (fun i j => (op.rot i j : ℝ)) := by
        rw [show (Matrix.of (diag 1 1 1) : MM) = 1 from diag_one, Matrix.mul_one, Matrix.one_mul] at hC; exact hC
      simp only [List.mem_cons, List.not_mem_nil, or_false] at hop
      have : C = 1 ∨ C = -1 := by
        rcases hop with rfl | rfl
        · left; rw [hC']; ext i j; simp [one', Op.one, diag, Matrix.one_apply, vec]
          match i with | 0 => simp | 1 => simp | 2 => simp
        · right; rw [hC']; ext i j; simp [onMesh, diag, Matrix.one_apply, vec]
          match i with | 0 => simp [apply_ite] | 1 => simp [apply_ite] | 2 => simp [apply_ite]
      rcases this with rfl | rfl <;> simp
  refine ⟨?_, hal, ?_⟩
  · intro op hop i j hij
    have := cube_setup.fixed op hop i j hij
    match i, j with
    | 0, 0 => rfl | 0, 1 => rfl | 0, 2 => simp at this
    | 1, 0 => rfl | 1, 1 => rfl | 1, 2 => simp at this
    | 2, 0 => simp at this | 2, 1 => simp at this | 2, 2 => rfl
  · have hc := (C68_constrain _ _ _ _ cube_setup [] _ rfl).2.1 _ hal
    unfold run
    rw [hc]
    have hs : step (diag 1 1 1) (diag 1 0 0) (1/10) = .ok (diag (11/10) 1 1) := by
      unfold step
      have e : mulMM (fun i j => diag 1 1 1 i j + 1/10 * diag 1 0 0 i j) (diag 1 1 1) = (diag (11/10) 1 1 : Mat ℝ) := by
        funext i j
        match i, j with
        | 0, 0 => simp [mulMM, diag, vec]; norm_num
        | 0, 1 => simp [mulMM, diag, vec] | 0, 2 => simp [mulMM, diag, vec]
        | 1, 0 => simp [mulMM, diag, vec] | 1, 1 => simp [mulMM, diag, vec] | 1, 2 => simp [mulMM, diag, vec]
        | 2, 0 => simp [mulMM, diag, vec] | 2, 1 => simp [mulMM, diag, vec] | 2, 2 => simp [mulMM, diag, vec]
      simp only [e]
      rw [if_neg]
      simp [det, box, M3.dot, cross, row, vec, diag]
    rw [hs]; rfl

end
end Jdftx.LatMin
