import Verif.Lemmas.FluidTrans

/-!
# C94: the translation operators of the classical fluids
-/
namespace Jdftx.Fluid
open Box ExCorr
noncomputable section

/-- **C94.** Translation by `-t` is the transpose of translation by `t`, for each of the three operators: it is the operator that propagates gradients. -/
theorem C94_transpose (o : TransOp) (S : Size) (hS : S.Pos) (f : Fin 3 → ℝ) (x y : Field) :
    ∑ j ∈ Finset.range (nr S), o.run S f x j * y j = ∑ j ∈ Finset.range (nr S), x j * o.run S (fun k => -f k) y j := run_adj S o hS f x y

/-- **C94.** The integral of a field does not change. -/
theorem C94_conserve (o : TransOp) (S : Size) (hS : S.Pos) (f : Fin 3 → ℝ) (x : Field) :
    ∑ j ∈ Finset.range (nr S), o.run S f x j = ∑ j ∈ Finset.range (nr S), x j := by
  have h := run_adj S o hS f x fun _ => 1
  simp only [mul_one] at h
  rw [h]
  refine Finset.sum_congr rfl fun j hj => ?_
  rw [run_uniform S o hS (fun k => -f k) 1 (fun _ => 1) (fun _ _ => rfl) j (Finset.mem_range.1 hj), mul_one]

/-- **C94.** Uniform fields do not change. -/
theorem C94_uniform (o : TransOp) (S : Size) (hS : S.Pos) (f : Fin 3 → ℝ) (c : ℝ) (x : Field) (hx : ∀ j < nr S, x j = c) :
    ∀ j < nr S, o.run S f x j = c := fun j hj => run_uniform S o hS f c x hx j hj

/-- **C94.** A translation by a whole number of grid spacings, in either direction, moves the values of the periodic field. -/
theorem C94_exact (o : TransOp) (S : Size) (hS : S.Pos) (n : IV) (x : Field) :
    ∀ j < nr S, o.run S ![(n.x : ℝ) / S.s0, (n.y : ℝ) / S.s1, (n.z : ℝ) / S.s2] x j
      = per S x ((rStart S j).x - n.x) ((rStart S j).y - n.y) ((rStart S j).z - n.z) := by
  intro j hj
  rw [run_grid S o hS n x j hj]
  rfl

/-- **C94.** The constant-spline operator moves the values by the grid vector nearest to the translation. -/
theorem C94_constant (S : Size) (hS : S.Pos) (f : Fin 3 → ℝ) :
    ∃ n : IV, abs (n.x - S.s0 * f 0) ≤ 1 / 2 ∧ abs (n.y - S.s1 * f 1) ≤ 1 / 2 ∧ abs (n.z - S.s2 * f 2) ≤ 1 / 2
      ∧ ∀ x : Field, ∀ j < nr S, TransOp.run .constant S f x j = per S x ((rStart S j).x - n.x) ((rStart S j).y - n.y) ((rStart S j).z - n.z) := by
  have key : ∀ (s : Nat) (f : ℝ), abs (((-roundSym (gridT s f) : Int) : ℝ) - s * f) ≤ 1 / 2 := by
    intro s f
    have h : ∀ x : ℝ, abs ((roundSym x : ℝ) - x) ≤ 1 / 2 := by
      intro x
      unfold roundSym
      have h1 := Int.floor_le (|x| + 0.5)
      have h2 := Int.lt_floor_add_one (|x| + 0.5)
      split
      · rename_i hx
        rw [abs_of_neg hx] at h1 h2 ⊢
        rw [abs_le]; push_cast; constructor <;> linarith
      · rename_i hx
        push Not at hx
        rw [abs_of_nonneg hx] at h1 h2 ⊢
        rw [abs_le]; constructor <;> linarith
    have := h (gridT s f)
    rw [← abs_neg]
    convert this using 2
    unfold gridT; push_cast; ring
  refine ⟨⟨-roundSym (gridT S.s0 (f 0)), -roundSym (gridT S.s1 (f 1)), -roundSym (gridT S.s2 (f 2))⟩, key _ _, key _ _, key _ _, fun x j hj => ?_⟩
  refine (constTrans_eq S hS f x j hj).trans ?_
  simp only [sub_neg_eq_add]
  rfl

/-- **C94.** The linear-spline operator interpolates the periodic field between the grid points, at the point that moves to the given one. -/
theorem C94_linear (S : Size) (hS : S.Pos) (f : Fin 3 → ℝ) (x : Field) :
    ∀ j < nr S, TransOp.run .linear S f x j = trilinear S x ((rStart S j).x - S.s0 * f 0) ((rStart S j).y - S.s1 * f 1) ((rStart S j).z - S.s2 * f 2) := by
  intro j hj
  refine (linTrans_trilinear S hS f x j hj).trans ?_
  congr 1 <;> · unfold gridT; ring

/-- **C94.** The Fourier operator translates every plane wave below the Nyquist frequency exactly, by any vector. -/
theorem C94_fourier (S : Size) (hS : S.Pos) (m : IV) (h0 : 2 * |m.x| < S.s0) (h1 : 2 * |m.y| < S.s1) (h2 : 2 * |m.z| < S.s2) (θ : ℝ) (f : Fin 3 → ℝ) (x : Field)
    (hx : ∀ j < nr S, x j = wave S m θ (rStart S j).x (rStart S j).y (rStart S j).z) :
    ∀ j < nr S, TransOp.run .fourier S f x j
      = wave S m θ ((rStart S j).x - S.s0 * f 0) ((rStart S j).y - S.s1 * f 1) ((rStart S j).z - S.s2 * f 2) :=
  fun j hj => fourTrans_wave S hS m h0 h1 h2 θ f x hx j hj

/-- **C94.** The spline operators keep the values between the bounds of the field: densities stay non-negative. -/
theorem C94_bounds (o : TransOp) (ho : o ≠ .fourier) (S : Size) (hS : S.Pos) (f : Fin 3 → ℝ) (x : Field) (a b : ℝ) (hx : ∀ j < nr S, a ≤ x j ∧ x j ≤ b) :
    ∀ j < nr S, a ≤ o.run S f x j ∧ o.run S f x j ≤ b := by
  intro j hj
  have hs : ∀ n, a ≤ shiftF S n x j ∧ shiftF S n x j ≤ b := fun n => hx _ (hop_lt S hS n j)
  cases o with
  | constant => rw [show TransOp.run .constant S f x j = _ from constTrans_eq S hS f x j hj]; exact hs _
  | linear =>
    rw [show TransOp.run .linear S f x j = _ from linTrans_eq S hS f x j hj]
    exact ⟨le_lerp (fun _ => le_lerp (fun _ => le_lerp (fun _ => (hs _).1) _) _) _, lerp_le (fun _ => lerp_le (fun _ => lerp_le (fun _ => (hs _).2) _) _) _⟩
  | fourier => exact absurd rfl ho

/-- **C94.** The spline operators read inside the array, whatever the translation. -/
theorem C94_in_range (S : Size) (hS : S.Pos) (f : Fin 3 → ℝ) (j : Nat) (hj : j < nr S) :
    (0 ≤ wrappedIndex S ⟨(rStart S j).x + wrapC (roundSym (gridT S.s0 (f 0))) S.s0, (rStart S j).y + wrapC (roundSym (gridT S.s1 (f 1))) S.s1,
        (rStart S j).z + wrapC (roundSym (gridT S.s2 (f 2))) S.s2⟩
      ∧ wrappedIndex S ⟨(rStart S j).x + wrapC (roundSym (gridT S.s0 (f 0))) S.s0, (rStart S j).y + wrapC (roundSym (gridT S.s1 (f 1))) S.s1,
        (rStart S j).z + wrapC (roundSym (gridT S.s2 (f 2))) S.s2⟩ < nr S)
    ∧ ∀ i0 i1 i2 : Int, (0 ≤ i0 ∧ i0 ≤ 1) → (0 ≤ i1 ∧ i1 ≤ 1) → (0 ≤ i2 ∧ i2 ≤ 1) →
      0 ≤ wrappedIndex S ⟨(rStart S j).x + intL (gridT S.s0 (f 0)) S.s0 + i0, (rStart S j).y + intL (gridT S.s1 (f 1)) S.s1 + i1,
          (rStart S j).z + intL (gridT S.s2 (f 2)) S.s2 + i2⟩
        ∧ wrappedIndex S ⟨(rStart S j).x + intL (gridT S.s0 (f 0)) S.s0 + i0, (rStart S j).y + intL (gridT S.s1 (f 1)) S.s1 + i1,
          (rStart S j).z + intL (gridT S.s2 (f 2)) S.s2 + i2⟩ < nr S := by
  have hv := rStart_valid S hS j hj
  rw [wrapC_eq _ _ hS.1, wrapC_eq _ _ hS.2.1, wrapC_eq _ _ hS.2.2, intL_eq _ _ hS.1, intL_eq _ _ hS.2.1, intL_eq _ _ hS.2.2]
  have hm := mod_valid S hS ⌊gridT S.s0 (f 0)⌋ ⌊gridT S.s1 (f 1)⌋ ⌊gridT S.s2 (f 2)⌋
  have hm' := mod_valid S hS (roundSym (gridT S.s0 (f 0))) (roundSym (gridT S.s1 (f 1))) (roundSym (gridT S.s2 (f 2)))
  obtain ⟨a0, a1, a2⟩ := hv
  obtain ⟨b0, b1, b2⟩ := hm
  obtain ⟨c0, c1, c2⟩ := hm'
  dsimp only at b0 b1 b2 c0 c1 c2
  constructor
  · rw [wrappedIndex_eq _ _ (by dsimp only; omega) (by dsimp only; omega) (by dsimp only; omega)]
    exact fullRindex_range S _ (mod_valid S hS _ _ _)
  · intro i0 i1 i2 d0 d1 d2
    rw [wrappedIndex_eq _ _ (by dsimp only; omega) (by dsimp only; omega) (by dsimp only; omega)]
    exact fullRindex_range S _ (mod_valid S hS _ _ _)

/-! ### Non-vacuity -/

/-- A grid of 4 x 3 x 2 points. -/
def sEx4 : Size := ⟨4, 3, 2⟩
theorem sEx4_pos : sEx4.Pos := ⟨by decide, by decide, by decide⟩

example (o : TransOp) (x : Field) : ∑ j ∈ Finset.range 24, o.run sEx4 ![0.3, -1.2, 5] x j = ∑ j ∈ Finset.range 24, x j := C94_conserve o sEx4 sEx4_pos _ x

/-- Two grid spacings backwards along the first direction: the value at the origin comes from the point (2,0,0). -/
example (o : TransOp) (x : Field) : o.run sEx4 ![((-2 : Int) : ℝ) / 4, ((0 : Int) : ℝ) / 3, ((0 : Int) : ℝ) / 2] x 0 = x 12 := by
  have h := C94_exact o sEx4 sEx4_pos ⟨-2, 0, 0⟩ x 0 (by decide)
  simpa [sEx4, per, rStart, fullRindex] using h

/-- The values are not only those of the grid points: half a spacing averages neighbours. -/
example (x : Field) : TransOp.run .linear sEx4 ![-1 / 8, 0, 0] x 0 = (x 0 + x 6) / 2 := by
  have h := C94_linear sEx4 sEx4_pos ![-1 / 8, 0, 0] x 0 (by decide)
  have e : (4 : ℝ) * (-1 / 8) = -(1 / 2) := by norm_num
  have e1 : ⌊(2⁻¹ : ℝ)⌋ = 0 := by rw [Int.floor_eq_iff]; norm_num
  have e2 : Int.fract (2⁻¹ : ℝ) = 2⁻¹ := by unfold Int.fract; rw [e1]; simp
  rw [h]
  simp [sEx4, trilinear, lerp, rStart, e, e1, e2, per, fullRindex]
  ring

/-- A plane wave below the Nyquist frequency. -/
example : 2 * |(1 : Int)| < (sEx4.s0 : Int) ∧ 2 * |(-1 : Int)| < (sEx4.s1 : Int) ∧ 2 * |(0 : Int)| < (sEx4.s2 : Int) := by decide

/-- **C94, the documented direction does not hold.** TranslationOperator.h:40 says that the result at `r` is the value at `r+t`; all operators return the value at `r-t`. -/
theorem C94_direction_fails (o : TransOp) : ∃ (S : Size) (n : IV) (x : Field), S.Pos ∧ ∃ j < nr S,
    o.run S ![(n.x : ℝ) / S.s0, (n.y : ℝ) / S.s1, (n.z : ℝ) / S.s2] x j ≠ per S x ((rStart S j).x + n.x) ((rStart S j).y + n.y) ((rStart S j).z + n.z) := by
  refine ⟨sEx4, ⟨1, 0, 0⟩, fun j => if j = 6 then 1 else 0, sEx4_pos, 0, by decide, ?_⟩
  rw [C94_exact o sEx4 sEx4_pos ⟨1, 0, 0⟩ _ 0 (by decide)]
  simp [sEx4, per, rStart, fullRindex]

end
end Jdftx.Fluid
