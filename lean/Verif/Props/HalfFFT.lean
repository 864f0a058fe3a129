import Verif.Lemmas.HalfFFT
import Verif.Props.BoxField

/-!
# C78: real-space and reciprocal-space forms of real fields
-/
namespace Jdftx.ExCorr
open Box
open ComplexConjugate
noncomputable section

/-! ### Specification -/

/-- Two real fields on the grid: sum over the points of their product. -/
def dotReal (S : Size) (u v : Field) : ℝ := ∑ j ∈ Finset.range (nr S), u j * v j

/-- Two real fields given by Fourier components in the half space: every vector of the full reciprocal grid counts once, and a vector
outside the half space has the conjugate component of the opposite vector. -/
def dotPairs (S : Size) (X Y : Arr) : ℝ :=
  ∑ i ∈ Finset.range (nG S), (if (hStart S i).z = 0 ∨ 2 * (hStart S i).z = S.s2 then 1 else 2) * (conj (X i) * Y i).re

/-- **C78 (real space).** Transforming a real field to reciprocal space and back returns it, at every grid point of every grid. -/
theorem C78_real (S : Size) (hS : S.Pos) (f : Field) (j : Nat) (hj : j < nr S) : fftI S (fftJ S f) j = f j := fftI_fftJ S hS f j hj

/-- **C78 (reciprocal space).** The components of a real field are conjugate at opposite vectors, and conversely every array with
this symmetry is returned unchanged by transforming to real space and back. -/
theorem C78_reciprocal (S : Size) (hS : S.Pos) :
    (∀ f : Field, HermitianHalf S (fftJ S f)) ∧ ∀ X : Arr, HermitianHalf S X → ∀ i < nG S, fftJ S (fftI S X) i = X i :=
  ⟨fftJ_hermitian S hS, fun X hX i hi => fftJ_fftI S hS X hX i hi⟩

/-- **C78 (adjoints).** `Idag` is the adjoint of `I`, and `Jdag` the adjoint of `J`, for all fields (also those without symmetry). -/
theorem C78_adjoint (S : Size) (u : Field) (X : Arr) :
    dotReal S u (fftI S X) = dotPairs S (Idag S u) X ∧ dotReal S (Jdag S X) u = dotPairs S X (fftJ S u) := by
  refine ⟨fftI_adjoint S u X, ?_⟩
  have h := fftI_adjoint S u X
  have e1 : dotReal S (Jdag S X) u = 1 / (nr S : ℝ) * ∑ j ∈ Finset.range (nr S), u j * fftI S X j := by
    unfold dotReal Jdag
    rw [Finset.mul_sum]
    exact Finset.sum_congr rfl fun j _ => by ring
  rw [e1, h, Finset.mul_sum]
  unfold dotPairs
  refine Finset.sum_congr rfl fun i _ => ?_
  have e : (conj (X i) * fftJ S u i).re = 1 / (nr S : ℝ) * (conj (Idag S u i) * X i).re := by
    unfold fftJ
    rw [show conj (X i) * (((1 / (nr S : ℝ) : ℝ) : ℂ) * Idag S u i) = ((1 / (nr S : ℝ) : ℝ) : ℂ) * (conj (X i) * Idag S u i) by ring,
      Complex.re_ofReal_mul]
    congr 1
    rw [← Complex.conj_re]; simp [mul_comm]
  rw [e]; unfold weight; ring

/-- **C78 (Parseval).** Products of real fields can be summed in either form. -/
theorem C78_parseval (S : Size) (hS : S.Pos) (u v : Field) : dotReal S u v = nr S * dotPairs S (fftJ S u) (fftJ S v) := by
  have h := (C78_adjoint S u (fftJ S v)).1
  have e : dotReal S u (fftI S (fftJ S v)) = dotReal S u v :=
    Finset.sum_congr rfl fun j hj => by rw [fftI_fftJ S hS v j (Finset.mem_range.1 hj)]
  rw [← e, h]
  unfold dotPairs
  rw [Finset.mul_sum]
  refine Finset.sum_congr rfl fun i _ => ?_
  have hn : (nr S : ℝ) ≠ 0 := by exact_mod_cast (nr_pos S hS).ne'
  have : (conj (fftJ S u i) * fftJ S v i).re = 1 / (nr S : ℝ) * (conj (Idag S u i) * fftJ S v i).re := by
    conv_lhs => rw [fftJ]
    rw [map_mul, Complex.conj_ofReal, mul_assoc, Complex.re_ofReal_mul]
  rw [this]; field_simp

/-- **C23 (real fields).** `dot` of two half-space fields is the inner product of the two real fields divided by the number of grid points,
when the last dimension of the grid is 1 or even (which the code does not enforce; see `C23_violation`). -/
theorem C23_real_partial (S : Size) (hS : S.Pos) (h2 : S.s2 = 1 ∨ S.s2 % 2 = 0) :
    (∀ X Y : Arr, dotHalf S X Y = dotPairs S X Y) ∧ ∀ u v : Field, dotReal S u v = nr S * dotHalf S (fftJ S u) (fftJ S v) := by
  have key : ∀ X Y : Arr, dotHalf S X Y = dotPairs S X Y := by
    intro X Y
    rw [dotHalf_re]
    have hw : dotPairs S X Y = ∑ i ∈ Finset.range (nG S), weight S i * (conj (X i) * Y i).re := rfl
    rw [hw]
    generalize hr : (fun i : Nat => (conj (X i) * Y i).re) = r
    have hr' : ∀ i : Nat, (conj (X i) * Y i).re = r i := fun i => by rw [← hr]
    simp only [hr', weight_eq]
    unfold nG
    rw [sum_range_mul' (S.s0 * S.s1), sum_range_mul' (S.s0 * S.s1)]
    have hq : ∀ q, ∑ z ∈ Finset.range (S.s2 / 2 + 1), (if (q * (S.s2 / 2 + 1) + z) % size2 S = 0 ∨ 2 * ((q * (S.s2 / 2 + 1) + z) % size2 S) = S.s2 then 1 else 2) *
        r (q * (S.s2 / 2 + 1) + z) = 2 * ∑ z ∈ Finset.range (S.s2 / 2 + 1), r (q * (S.s2 / 2 + 1) + z) - r (q * (S.s2 / 2 + 1))
          - (if S.s2 / 2 + 1 = 1 then 0 else r (S.s2 / 2 + q * (S.s2 / 2 + 1))) := by
      intro q
      have em : ∀ z ∈ Finset.range (S.s2 / 2 + 1), (if (q * (S.s2 / 2 + 1) + z) % size2 S = 0 ∨ 2 * ((q * (S.s2 / 2 + 1) + z) % size2 S) = S.s2 then (1 : ℝ) else 2) *
          r (q * (S.s2 / 2 + 1) + z) = (if z = 0 ∨ 2 * z = S.s2 then 1 else 2) * r (q * (S.s2 / 2 + 1) + z) := by
        intro z hz
        have : (q * (S.s2 / 2 + 1) + z) % size2 S = z := by
          unfold size2
          rw [mul_comm, Nat.mul_add_mod, Nat.mod_eq_of_lt (Finset.mem_range.1 hz)]
        rw [this]
      rw [Finset.sum_congr rfl em]
      rcases h2 with h | h
      · rw [h]; simp; ring
      · obtain ⟨k, hk⟩ : ∃ k, S.s2 = 2 * (k + 1) := ⟨S.s2 / 2 - 1, by have := hS.2.2; omega⟩
        rw [if_neg (by omega), show S.s2 / 2 = k + 1 by omega, hk, Finset.sum_range_succ, Finset.sum_range_succ', Finset.sum_range_succ (n := k + 1), Finset.sum_range_succ' (n := k)]
        have : ∀ x ∈ Finset.range k, (if x + 1 = 0 ∨ 2 * (x + 1) = 2 * (k + 1) then (1 : ℝ) else 2) * r (q * (k + 1 + 1) + (x + 1)) = 2 * r (q * (k + 1 + 1) + (x + 1)) := by
          intro x hx
          have := Finset.mem_range.1 hx
          rw [if_neg (by omega)]
        rw [Finset.sum_congr rfl this, ← Finset.mul_sum, if_pos (Or.inl rfl), if_pos (Or.inr rfl), add_comm (k + 1) (q * _)]
        simp only [add_zero]
        ring
    simp only [hq, Finset.sum_sub_distrib, ← Finset.mul_sum]
    by_cases h : S.s2 / 2 + 1 = 1
    · simp only [if_pos h, Finset.sum_const_zero]
    · simp only [if_neg h]
  exact ⟨key, fun u v => by rw [key, C78_parseval S hS]⟩

/-- A real field on a grid with odd and even dimensions, where none of the statements is about zeros. -/
example : fftI ⟨2, 3, 5⟩ (fftJ ⟨2, 3, 5⟩ fun j => (j : ℝ) ^ 2) 7 = 49 := by
  rw [C78_real _ ⟨by norm_num, by norm_num, by norm_num⟩ _ 7 (by decide)]; norm_num

example : ∃ X : Arr, HermitianHalf ⟨2, 3, 4⟩ X ∧ fftI ⟨2, 3, 4⟩ X 1 = 1 :=
  ⟨fftJ _ fun j => (j : ℝ), fftJ_hermitian _ ⟨by norm_num, by norm_num, by norm_num⟩ _, by
    rw [C78_real _ ⟨by norm_num, by norm_num, by norm_num⟩ _ 1 (by decide)]; norm_num⟩

end
end Jdftx.ExCorr
