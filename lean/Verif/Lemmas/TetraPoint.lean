import Verif.Lemmas.TetraDos
import Mathlib.Analysis.Calculus.Deriv.Pow
import Mathlib.Analysis.Calculus.Deriv.Add
import Mathlib.Analysis.Calculus.Deriv.Mul
import Mathlib.LinearAlgebra.Matrix.Adjugate

/-! # The density from one tetrahedron is the derivative of the volume below an energy -/
noncomputable section
namespace Jdftx.Tetra

theorem Bez.prim_deriv (b : Bez ℝ) (lo h E : ℝ) (hh : h ≠ 0) : HasDerivAt (fun E => h * b.prim ((E - lo) / h)) (b.value ((E - lo) / h)) E := by
  have ht : HasDerivAt (fun E : ℝ => (E - lo) / h) (1 / h) E := ((hasDerivAt_id E).sub_const lo).div_const h
  have h1 := ht.const_mul b.b0
  have h2 := ((ht.pow 2).const_mul (3 / 2)).const_mul (b.b1 - b.b0)
  have h3 := (ht.pow 3).const_mul (b.b2 - 2 * b.b1 + b.b0)
  have h4 := ((ht.pow 4).div_const 4).const_mul (b.b3 - 3 * b.b2 + 3 * b.b1 - b.b0)
  have := (((h1.add h2).add h3).add h4).const_mul h
  refine (this.congr_deriv ?_).congr_of_eventuallyEq (Filter.Eventually.of_forall fun t => ?_)
  · have e1 : (2 : ℕ) - 1 = 1 := rfl
    have e2 : (3 : ℕ) - 1 = 2 := rfl
    have e3 : (4 : ℕ) - 1 = 3 := rfl
    simp only [Bez.value, e1, e2, e3]
    push_cast
    field_simp
    ring
  · simp only [Bez.prim, Pi.add_apply, Pi.pow_apply]

/-- Volume-weighted integrals, with the determinants worked out. -/
theorem sub_low (e w : Fin 4 → ℝ) (E : ℝ) (h0 : e 0 < E) (h1 : e 0 < e 1) (h2 : e 0 < e 2) (h3 : e 0 < e 3) :
    sub w (corner 0) (cut e E 0 1) (cut e E 0 2) (cut e E 0 3) = (E - e 0) ^ 3 / ((e 1 - e 0) * (e 2 - e 0) * (e 3 - e 0)) *
      ((w 0 + (w 0 + (E - e 0) / (e 1 - e 0) * (w 1 - w 0)) + (w 0 + (E - e 0) / (e 2 - e 0) * (w 2 - w 0)) + (w 0 + (E - e 0) / (e 3 - e 0) * (w 3 - w 0))) / 4) := by
  have a1 : e 1 - e 0 ≠ 0 := ne_of_gt (sub_pos.2 h1)
  have a2 : e 2 - e 0 ≠ 0 := ne_of_gt (sub_pos.2 h2)
  have a3 : e 3 - e 0 ≠ 0 := ne_of_gt (sub_pos.2 h3)
  unfold sub
  have hd : Matrix.det !![corner 0 0, corner 0 1, corner 0 2, corner 0 3; cut e E 0 1 0, cut e E 0 1 1, cut e E 0 1 2, cut e E 0 1 3; cut e E 0 2 0, cut e E 0 2 1, cut e E 0 2 2, cut e E 0 2 3; cut e E 0 3 0, cut e E 0 3 1, cut e E 0 3 2, cut e E 0 3 3] = (E - e 0) ^ 3 / ((e 1 - e 0) * (e 2 - e 0) * (e 3 - e 0)) := by
    simp [Matrix.det_succ_row_zero, Fin.sum_univ_succ, corner, cut, Fin.succAbove]
    field_simp
  rw [hd, abs_of_pos (by have := sub_pos.2 h0; have := sub_pos.2 h1; have := sub_pos.2 h2; have := sub_pos.2 h3; positivity)]
  congr 1
  simp [at', corner, cut]
  field_simp
  ring

theorem sub_high (e w : Fin 4 → ℝ) (E : ℝ) (h0 : E < e 3) (h1 : e 0 < e 3) (h2 : e 1 < e 3) (h3 : e 2 < e 3) :
    sub w (corner 3) (cut e E 0 3) (cut e E 1 3) (cut e E 2 3) = (e 3 - E) ^ 3 / ((e 3 - e 0) * (e 3 - e 1) * (e 3 - e 2)) *
      ((w 3 + (w 3 + (e 3 - E) / (e 3 - e 0) * (w 0 - w 3)) + (w 3 + (e 3 - E) / (e 3 - e 1) * (w 1 - w 3)) + (w 3 + (e 3 - E) / (e 3 - e 2) * (w 2 - w 3))) / 4) := by
  have a1 : e 3 - e 0 ≠ 0 := ne_of_gt (sub_pos.2 h1)
  have a2 : e 3 - e 1 ≠ 0 := ne_of_gt (sub_pos.2 h2)
  have a3 : e 3 - e 2 ≠ 0 := ne_of_gt (sub_pos.2 h3)
  unfold sub
  have hd : Matrix.det !![corner 3 0, corner 3 1, corner 3 2, corner 3 3; cut e E 0 3 0, cut e E 0 3 1, cut e E 0 3 2, cut e E 0 3 3; cut e E 1 3 0, cut e E 1 3 1, cut e E 1 3 2, cut e E 1 3 3; cut e E 2 3 0, cut e E 2 3 1, cut e E 2 3 2, cut e E 2 3 3] = -((e 3 - E) ^ 3 / ((e 3 - e 0) * (e 3 - e 1) * (e 3 - e 2))) := by
    simp [Matrix.det_succ_row_zero, Fin.sum_univ_succ, corner, cut, Fin.succAbove]
    field_simp
  rw [hd, abs_neg, abs_of_pos (by have := sub_pos.2 h0; have := sub_pos.2 h1; have := sub_pos.2 h2; have := sub_pos.2 h3; positivity)]
  congr 1
  simp [at', corner, cut]
  field_simp
  ring

theorem sub_all (w : Fin 4 → ℝ) : sub w (corner 0) (corner 1) (corner 2) (corner 3) = (w 0 + w 1 + w 2 + w 3) / 4 := by
  unfold sub
  have hd : Matrix.det !![corner 0 0, corner 0 1, corner 0 2, corner 0 3; corner 1 0, corner 1 1, corner 1 2, corner 1 3; corner 2 0, corner 2 1, corner 2 2, corner 2 3; corner 3 0, corner 3 1, corner 3 2, corner 3 3] = 1 := by
    simp [Matrix.det_succ_row_zero, Fin.sum_univ_succ, corner, Fin.succAbove]
  rw [hd]
  simp [at', corner]

theorem sub_mid1 (e w : Fin 4 → ℝ) (E : ℝ) (h0 : e 0 < E) (h2 : e 0 < e 2) (h3 : e 0 < e 3) :
    sub w (corner 0) (corner 1) (cut e E 0 2) (cut e E 0 3) = (E - e 0) ^ 2 / ((e 2 - e 0) * (e 3 - e 0)) *
      ((w 0 + w 1 + (w 0 + (E - e 0) / (e 2 - e 0) * (w 2 - w 0)) + (w 0 + (E - e 0) / (e 3 - e 0) * (w 3 - w 0))) / 4) := by
  have a2 : e 2 - e 0 ≠ 0 := ne_of_gt (sub_pos.2 h2)
  have a3 : e 3 - e 0 ≠ 0 := ne_of_gt (sub_pos.2 h3)
  unfold sub
  have hd : Matrix.det !![corner 0 0, corner 0 1, corner 0 2, corner 0 3; corner 1 0, corner 1 1, corner 1 2, corner 1 3; cut e E 0 2 0, cut e E 0 2 1, cut e E 0 2 2, cut e E 0 2 3; cut e E 0 3 0, cut e E 0 3 1, cut e E 0 3 2, cut e E 0 3 3] = (E - e 0) ^ 2 / ((e 2 - e 0) * (e 3 - e 0)) := by
    simp [Matrix.det_succ_row_zero, Fin.sum_univ_succ, corner, cut, Fin.succAbove]
    field_simp
  rw [hd, abs_of_pos (by have := sub_pos.2 h0; have := sub_pos.2 h2; have := sub_pos.2 h3; positivity)]
  congr 1
  simp [at', corner, cut]
  field_simp
  ring

theorem sub_mid2 (e w : Fin 4 → ℝ) (E : ℝ) (h0 : e 0 < E) (h1 : e 1 < E) (hE : E < e 3) (h2 : e 0 < e 2) :
    sub w (corner 1) (cut e E 0 2) (cut e E 0 3) (cut e E 1 3) = (E - e 0) / (e 2 - e 0) * ((e 3 - E) / (e 3 - e 0)) * ((E - e 1) / (e 3 - e 1)) *
      ((w 1 + (w 0 + (E - e 0) / (e 2 - e 0) * (w 2 - w 0)) + (w 0 + (E - e 0) / (e 3 - e 0) * (w 3 - w 0)) + (w 1 + (E - e 1) / (e 3 - e 1) * (w 3 - w 1))) / 4) := by
  have b2 := sub_pos.2 h2
  have b3 : 0 < e 3 - e 0 := by linarith
  have b4 : 0 < e 3 - e 1 := by linarith
  have a2 : e 2 - e 0 ≠ 0 := ne_of_gt b2
  have a3 : e 3 - e 0 ≠ 0 := ne_of_gt b3
  have a4 : e 3 - e 1 ≠ 0 := ne_of_gt b4
  unfold sub
  have hd : Matrix.det !![corner 1 0, corner 1 1, corner 1 2, corner 1 3; cut e E 0 2 0, cut e E 0 2 1, cut e E 0 2 2, cut e E 0 2 3; cut e E 0 3 0, cut e E 0 3 1, cut e E 0 3 2, cut e E 0 3 3; cut e E 1 3 0, cut e E 1 3 1, cut e E 1 3 2, cut e E 1 3 3] = (E - e 0) / (e 2 - e 0) * ((e 3 - E) / (e 3 - e 0)) * ((E - e 1) / (e 3 - e 1)) := by
    simp [Matrix.det_succ_row_zero, Fin.sum_univ_succ, corner, cut, Fin.succAbove]
    field_simp
  rw [hd, abs_of_pos (by have := sub_pos.2 h0; have := sub_pos.2 h1; have := sub_pos.2 hE; positivity)]
  congr 1
  simp [at', corner, cut]
  field_simp
  ring

theorem sub_mid3 (e w : Fin 4 → ℝ) (E : ℝ) (h0 : e 0 < e 2) (h1 : e 1 < E) (hE : E < e 2) (h3 : e 1 < e 3) :
    sub w (corner 1) (cut e E 0 2) (cut e E 1 2) (cut e E 1 3) = (e 2 - E) / (e 2 - e 0) * ((E - e 1) / (e 2 - e 1)) * ((E - e 1) / (e 3 - e 1)) *
      ((w 1 + (w 0 + (E - e 0) / (e 2 - e 0) * (w 2 - w 0)) + (w 1 + (E - e 1) / (e 2 - e 1) * (w 2 - w 1)) + (w 1 + (E - e 1) / (e 3 - e 1) * (w 3 - w 1))) / 4) := by
  have b2 := sub_pos.2 h0
  have b3 : 0 < e 2 - e 1 := by linarith
  have b4 := sub_pos.2 h3
  have a2 : e 2 - e 0 ≠ 0 := ne_of_gt b2
  have a3 : e 2 - e 1 ≠ 0 := ne_of_gt b3
  have a4 : e 3 - e 1 ≠ 0 := ne_of_gt b4
  unfold sub
  have hd : Matrix.det !![corner 1 0, corner 1 1, corner 1 2, corner 1 3; cut e E 0 2 0, cut e E 0 2 1, cut e E 0 2 2, cut e E 0 2 3; cut e E 1 2 0, cut e E 1 2 1, cut e E 1 2 2, cut e E 1 2 3; cut e E 1 3 0, cut e E 1 3 1, cut e E 1 3 2, cut e E 1 3 3] = -((e 2 - E) / (e 2 - e 0) * ((E - e 1) / (e 2 - e 1)) * ((E - e 1) / (e 3 - e 1))) := by
    simp [Matrix.det_succ_row_zero, Fin.sum_univ_succ, corner, cut, Fin.succAbove]
    field_simp
  rw [hd, abs_neg, abs_of_pos (by have := sub_pos.2 h1; have := sub_pos.2 hE; positivity)]
  congr 1
  simp [at', corner, cut]
  field_simp
  ring

theorem value_zero (t : ℝ) : (Bez.zero : Bez ℝ).value t = 0 := by simp [Bez.value, Bez.zero]

theorem value_add (x y : Bez ℝ) (t : ℝ) : (x.add y).value t = x.value t + y.value t := by simp only [Bez.value, Bez.add]; ring

/-- One piece at `E`. -/
def pieceAt (E : ℝ) (k : ℝ × ℝ) (b : Bez ℝ) : ℝ := if k.1 < E ∧ E < k.2 then b.value ((E - k.1) / (k.2 - k.1)) else 0

theorem density_mapAdd (k : ℝ × ℝ) (d : Bez ℝ) (m : List ((ℝ × ℝ) × Bez ℝ)) (E : ℝ) : density (mapAdd k d m) E = density m E + pieceAt E k d := by
  refine mapAdd_sum (pieceAt E) (fun k => ?_) (fun k x y => ?_) k d m
  · simp [pieceAt, value_zero]
  · unfold pieceAt; split <;> simp [value_add]

theorem density_ite (p q : ℝ) (d : Bez ℝ) (m : List ((ℝ × ℝ) × Bez ℝ)) (E : ℝ) :
    density (if q > p then mapAdd (p, q) d m else m) E = density m E + pieceAt E (p, q) d := by
  split
  · exact density_mapAdd _ _ _ _
  · rename_i h
    unfold pieceAt
    rw [if_neg, add_zero]
    rintro ⟨h1, h2⟩
    exact h (lt_trans h1 h2)

open Filter Topology in
/-- If `f` agrees with a constant plus the integral of a piece on the interval of that piece, its derivative there is the piece. -/
theorem deriv_piece (f : ℝ → ℝ) (lo hi C : ℝ) (b : Bez ℝ) (E : ℝ) (h1 : lo < E) (h2 : E < hi) (hf : ∀ x, lo < x → x < hi → f x = C + (hi - lo) * b.prim ((x - lo) / (hi - lo))) :
    HasDerivAt f (pieceAt E (lo, hi) b) E := by
  have hh : hi - lo ≠ 0 := ne_of_gt (sub_pos.2 (lt_trans h1 h2))
  unfold pieceAt
  rw [if_pos ⟨h1, h2⟩]
  refine ((b.prim_deriv lo (hi - lo) E hh).const_add C).congr_of_eventuallyEq ?_
  filter_upwards [Ioo_mem_nhds h1 h2] with x hx
  exact hf x hx.1 hx.2

/-- The density added by a tetrahedron is the derivative of its volume-weighted integral below the energy. -/
theorem accum_deriv (V : ℝ) (e w : Fin 4 → ℝ) (h01 : e 0 ≤ e 1) (h12 : e 1 ≤ e 2) (h23 : e 2 ≤ e 3) (c : Cspline ℝ) (E : ℝ) (hE : ∀ i, E ≠ e i) :
    HasDerivAt (fun x => V * below e w x) (density (accumSorted V (e 0, w 0) (e 1, w 1) (e 2, w 2) (e 3, w 3) c).ivs E - density c.ivs E) E := by
  rcases lt_or_ge E (e 0) with hlt | hge
  · -- below everything
    have hd : density (accumSorted V (e 0, w 0) (e 1, w 1) (e 2, w 2) (e 3, w 3) c).ivs E - density c.ivs E = 0 := by
      unfold accumSorted
      simp only
      split
      · simp
      · simp only [density_ite, pieceAt]
        rw [if_neg (fun h => by linarith [h.1]), if_neg (fun h => by linarith [h.1]), if_neg (fun h => by linarith [h.1])]; ring
    rw [hd]
    refine (hasDerivAt_const E (0 : ℝ)).congr_of_eventuallyEq ?_
    filter_upwards [Iio_mem_nhds hlt] with x hx
    have hx : x < e 0 := hx
    simp [below, le_of_lt hx]
  · have h0 : e 0 < E := lt_of_le_of_ne hge fun h => hE 0 h.symm
    rcases lt_or_ge (e 3) E with hgt | hle
    · have hd : density (accumSorted V (e 0, w 0) (e 1, w 1) (e 2, w 2) (e 3, w 3) c).ivs E - density c.ivs E = 0 := by
        unfold accumSorted
        simp only
        split
        · simp
        · simp only [density_ite, pieceAt]
          rw [if_neg (fun h => by linarith [h.2]), if_neg (fun h => by linarith [h.2]), if_neg (fun h => by linarith [h.2])]; ring
      rw [hd]
      refine (hasDerivAt_const E (V * sub w (corner 0) (corner 1) (corner 2) (corner 3))).congr_of_eventuallyEq ?_
      filter_upwards [Ioi_mem_nhds hgt] with x hx
      have hx : e 3 < x := hx
      unfold below
      rw [if_neg (by linarith), if_neg (by linarith), if_neg (by linarith), if_neg (by linarith)]
    · have h3 : E < e 3 := lt_of_le_of_ne hle (hE 3)
      have hne : ¬ e 3 = e 0 := ne_of_gt (lt_trans h0 h3)
      have a30 : e 3 - e 0 ≠ 0 := ne_of_gt (by linarith)
      unfold accumSorted
      simp only [if_neg hne, density_ite]
      rcases lt_or_ge E (e 1) with h1 | h1
      · -- first interval
        have g1 : e 0 < e 1 := lt_trans h0 h1
        have g2 : e 0 < e 2 := lt_of_lt_of_le g1 h12
        have g3 : e 0 < e 3 := lt_trans h0 h3
        have b1 : e 1 - e 0 ≠ 0 := ne_of_gt (sub_pos.2 g1)
        have b2 : e 2 - e 0 ≠ 0 := ne_of_gt (sub_pos.2 g2)
        have z1 : ∀ b, pieceAt E (e 1, e 2) b = 0 := fun b => if_neg fun h => by have := h.1; linarith
        have z2 : ∀ b, pieceAt E (e 2, e 3) b = 0 := fun b => if_neg fun h => by have := h.1; linarith
        rw [z1, z2, if_pos g2]
        have main := deriv_piece (fun x => V * below e w x) (e 0) (e 1) 0 ⟨0, 0, 1 / (e 3 - e 0) * V * ((e 1 - e 0) / (e 2 - e 0)) * w 0,
          1 / (e 3 - e 0) * V * ((e 1 - e 0) / (e 2 - e 0)) * (w 1 + (w 0 + (w 2 - w 0) * ((e 1 - e 0) / (e 2 - e 0))) + (w 0 + (w 3 - w 0) * ((e 1 - e 0) * (1 / (e 3 - e 0)))))⟩ E h0 h1 ?_
        · convert main using 1; ring
        · intro x hx1 hx2
          unfold below
          rw [if_neg (by linarith), if_pos (by linarith), sub_low e w x hx1 g1 g2 g3]
          simp only [Bez.prim]
          field_simp
          ring
      · have h1 : e 1 < E := lt_of_le_of_ne h1 fun h => hE 1 h.symm
        rcases lt_or_ge E (e 2) with h2 | h2
        · -- middle interval
          have g12 : e 1 < e 2 := lt_trans h1 h2
          have g2 : e 0 < e 2 := lt_trans h0 h2
          have g3 : e 0 < e 3 := lt_trans h0 h3
          have g13 : e 1 < e 3 := lt_trans h1 h3
          have b1 : e 2 - e 1 ≠ 0 := ne_of_gt (sub_pos.2 g12)
          have b2 : e 2 - e 0 ≠ 0 := ne_of_gt (sub_pos.2 g2)
          have b3 : e 3 - e 1 ≠ 0 := ne_of_gt (sub_pos.2 g13)
          have z1 : ∀ b, pieceAt E (e 0, e 1) b = 0 := fun b => if_neg fun h => by have := h.2; linarith
          have z2 : ∀ b, pieceAt E (e 2, e 3) b = 0 := fun b => if_neg fun h => by have := h.1; linarith
          rw [z1, z2, if_pos g2, if_pos g13]
          have main := deriv_piece (fun x => V * below e w x) (e 1) (e 2)
            (V * ((e 1 - e 0) ^ 2 / ((e 2 - e 0) * (e 3 - e 0)) * ((w 0 + w 1 + (w 0 + (e 1 - e 0) / (e 2 - e 0) * (w 2 - w 0)) + (w 0 + (e 1 - e 0) / (e 3 - e 0) * (w 3 - w 0))) / 4)))
            ⟨1 / (e 3 - e 0) * V * ((e 1 - e 0) / (e 2 - e 0)) * (w 1 + (w 0 + (w 2 - w 0) * ((e 1 - e 0) / (e 2 - e 0))) + (w 0 + (w 3 - w 0) * ((e 1 - e 0) * (1 / (e 3 - e 0))))),
             1 / (e 3 - e 0) * V * (w 1 + 1 / 3 * (2 * (w 0 + (w 3 - w 0) * ((e 1 - e 0) * (1 / (e 3 - e 0)))) + (w 0 + (w 2 - w 0) * ((e 1 - e 0) / (e 2 - e 0))) + (e 1 - e 0) / (e 2 - e 0) * (2 * w 2 + (w 3 + (w 0 - w 3) * ((e 3 - e 2) * (1 / (e 3 - e 0))))))),
             1 / (e 3 - e 0) * V * (w 2 + 1 / 3 * (2 * (w 3 + (w 0 - w 3) * ((e 3 - e 2) * (1 / (e 3 - e 0)))) + (w 3 + (w 1 - w 3) * ((e 3 - e 2) / (e 3 - e 1))) + (e 3 - e 2) / (e 3 - e 1) * (2 * w 1 + (w 0 + (w 3 - w 0) * ((e 1 - e 0) * (1 / (e 3 - e 0))))))),
             1 / (e 3 - e 0) * V * ((e 3 - e 2) / (e 3 - e 1)) * (w 2 + (w 3 + (w 0 - w 3) * ((e 3 - e 2) * (1 / (e 3 - e 0)))) + (w 3 + (w 1 - w 3) * ((e 3 - e 2) / (e 3 - e 1))))⟩ E h1 h2 ?_
          · convert main using 1; ring
          · intro x hx1 hx2
            unfold below
            rw [if_neg (by linarith), if_neg (by linarith), if_pos (by linarith), sub_mid1 e w x (by linarith) g2 g3, sub_mid2 e w x (by linarith) hx1 (by linarith) g2, sub_mid3 e w x g2 hx1 hx2 g13]
            simp only [Bez.prim]
            field_simp
            ring
        · have h2 : e 2 < E := lt_of_le_of_ne h2 fun h => hE 2 h.symm
          have g1 : e 0 < e 3 := lt_trans h0 h3
          have g2 : e 1 < e 3 := lt_trans h1 h3
          have g3 : e 2 < e 3 := lt_trans h2 h3
          have b1 : e 3 - e 1 ≠ 0 := ne_of_gt (sub_pos.2 g2)
          have b2 : e 3 - e 2 ≠ 0 := ne_of_gt (sub_pos.2 g3)
          have z1 : ∀ b, pieceAt E (e 0, e 1) b = 0 := fun b => if_neg fun h => by have := h.2; linarith
          have z2 : ∀ b, pieceAt E (e 1, e 2) b = 0 := fun b => if_neg fun h => by have := h.2; linarith
          rw [z1, z2, if_pos g2]
          have main := deriv_piece (fun x => V * below e w x) (e 2) (e 3)
            (V * ((w 0 + w 1 + w 2 + w 3) / 4 - (e 3 - e 2) ^ 3 / ((e 3 - e 0) * (e 3 - e 1) * (e 3 - e 2)) * ((w 3 + (w 3 + (e 3 - e 2) / (e 3 - e 0) * (w 0 - w 3)) + (w 3 + (e 3 - e 2) / (e 3 - e 1) * (w 1 - w 3)) + w 2) / 4)))
            ⟨1 / (e 3 - e 0) * V * ((e 3 - e 2) / (e 3 - e 1)) * (w 2 + (w 3 + (w 0 - w 3) * ((e 3 - e 2) * (1 / (e 3 - e 0)))) + (w 3 + (w 1 - w 3) * ((e 3 - e 2) / (e 3 - e 1)))),
             1 / (e 3 - e 0) * V * ((e 3 - e 2) / (e 3 - e 1)) * w 3, 0, 0⟩ E h2 h3 ?_
          · convert main using 1; ring
          · intro x hx1 hx2
            unfold below
            rw [if_neg (by linarith), if_neg (by linarith), if_neg (by linarith), if_pos (by linarith), sub_all, sub_high e w x hx2 g1 g2 g3]
            simp only [Bez.prim]
            field_simp
            ring

end Jdftx.Tetra
