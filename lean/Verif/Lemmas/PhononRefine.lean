import Verif.Lemmas.Phonon

/-!
# Lemmas for C98: the refined gradients
-/
namespace Jdftx.Phonon
noncomputable section
open Matrix

variable {n : Nat} {S : Box.Size}

theorem symmetric_iff (hS : S.Pos) (F : Grads n) : Symmetric S F ↔ ∀ i j, ∀ R < prodSup S, F i j R = F j i (negU S R) := by
  unfold Symmetric
  simp only [getUnit_toNat hS, uOf_opp hS]
  constructor
  · intro h i j R hR
    have := h i j (getCell S R)
    rwa [uOf_getCell hS hR] at this
  · intro h i j c
    exact h i j _ (uOf_lt hS c)

/-- The total over cells. -/
def tot (S : Box.Size) (F : Grads n) : Mode n → Mode n → ℝ := fun i j => ∑ R ∈ Finset.range (prodSup S), F i j R

theorem sumRule_iff (F : Grads n) : SumRule S F ↔ ∀ (i : Mode n) (d : Fin 3), ∑ b, tot S F i (b, d) = 0 ∧ ∑ a, tot S F (a, d) i = 0 := by
  unfold SumRule tot
  refine forall_congr' fun i => forall_congr' fun d => ?_
  rw [Finset.sum_comm, Finset.sum_comm (f := fun R a => F (a, d) i R)]

theorem refine_eq (hS : S.Pos) (F : Grads n) (i j : Mode n) {R : Nat} (hR : R < prodSup S) :
    dgradSymmetrize S F i j R = symF S F i j R + msum (tot S (symF S F)) i j * (1 / (prodSup S : ℝ)) := by
  unfold dgradSymmetrize
  rw [dgradSymmetrize_eq hS F i j hR, Complex.ofReal_re]
  rfl

theorem symF_symm (hS : S.Pos) (F : Grads n) (i j : Mode n) {R : Nat} (hR : R < prodSup S) : symF S F i j R = symF S F j i (negU S R) := by
  unfold symF
  rw [negU_negU hS hR]
  ring

theorem tot_symF (hS : S.Pos) (F : Grads n) (i j : Mode n) : tot S (symF S F) i j = tot S (symF S F) j i := by
  unfold tot
  rw [← sum_negU hS]
  refine Finset.sum_congr rfl fun R hR => ?_
  exact (symF_symm hS F j i (Finset.mem_range.1 hR)).symm

theorem msum_comm {X : Mode n → Mode n → ℝ} (h : ∀ i j, X i j = X j i) (i j : Mode n) : msum X i j = msum X j i := by
  rw [← msum_swap X i j]
  congr 1
  funext a b
  exact h b a

theorem refine_symm (hS : S.Pos) (F : Grads n) : Symmetric S (dgradSymmetrize S F) := by
  rw [symmetric_iff hS]
  intro i j R hR
  rw [refine_eq hS F i j hR, refine_eq hS F j i (negU_lt hS R), symF_symm hS F i j hR, msum_comm (tot_symF hS F) i j]

theorem tot_refine (hS : S.Pos) (F : Grads n) (i j : Mode n) :
    tot S (dgradSymmetrize S F) i j = tot S (symF S F) i j + msum (tot S (symF S F)) i j := by
  have hp : (prodSup S : ℝ) ≠ 0 := by exact_mod_cast (prodSup_pos hS).ne'
  conv_lhs => unfold tot
  rw [Finset.sum_congr rfl fun R hR => refine_eq hS F i j (Finset.mem_range.1 hR), Finset.sum_add_distrib, Finset.sum_const, Finset.card_range, nsmul_eq_mul]
  have : (prodSup S : ℝ) * (msum (tot S (symF S F)) i j * (1 / (prodSup S : ℝ))) = msum (tot S (symF S F)) i j := by field_simp
  rw [this]
  rfl

theorem refine_sum (hS : S.Pos) (F : Grads n) : SumRule S (dgradSymmetrize S F) := by
  rw [sumRule_iff]
  intro i d
  simp only [tot_refine hS]
  exact ⟨msum_row _ i d, msum_col _ i d⟩

theorem symF_of_symm (hS : S.Pos) {F : Grads n} (h : Symmetric S F) (i j : Mode n) {R : Nat} (hR : R < prodSup S) : symF S F i j R = F i j R := by
  unfold symF
  rw [← (symmetric_iff hS F).1 h i j R hR]
  ring

theorem tot_congr {F G : Grads n} (h : ∀ i j, ∀ R < prodSup S, F i j R = G i j R) : tot S F = tot S G := by
  funext i j
  exact Finset.sum_congr rfl fun R hR => h i j R (Finset.mem_range.1 hR)

theorem msum_zero {X : Mode n → Mode n → ℝ} (h : ∀ (i : Mode n) (d : Fin 3), ∑ b, X i (b, d) = 0 ∧ ∑ a, X (a, d) i = 0) (i j : Mode n) : msum X i j = 0 := by
  unfold msum
  rw [(h i j.2).1, (h j i.2).2, Finset.sum_eq_zero fun a _ => (h (a, i.2) j.2).1]
  ring

theorem refine_id (hS : S.Pos) {F : Grads n} (h : Symmetric S F) (h' : SumRule S F) (i j : Mode n) {R : Nat} (hR : R < prodSup S) :
    dgradSymmetrize S F i j R = F i j R := by
  rw [refine_eq hS F i j hR, symF_of_symm hS h i j hR, tot_congr fun i j R hR => symF_of_symm hS h i j hR, msum_zero ((sumRule_iff F).1 h')]
  ring

/-! ### The smallest change -/

/-- Inner product of gradients. -/
def inner (S : Box.Size) (F G : Grads n) : ℝ := ∑ R ∈ Finset.range (prodSup S), ∑ i, ∑ j, F i j R * G i j R

theorem inner_flip (hS : S.Pos) (F : Grads n) {H : Grads n} (h : Symmetric S H) :
    inner S (fun i j R => F j i (negU S R)) H = inner S F H := by
  unfold inner
  rw [← sum_negU hS]
  refine Finset.sum_congr rfl fun R hR => ?_
  rw [Finset.sum_comm]
  refine Finset.sum_congr rfl fun i _ => Finset.sum_congr rfl fun j _ => ?_
  show F i j (negU S (negU S R)) * H j i (negU S R) = _
  rw [negU_negU hS (Finset.mem_range.1 hR), (symmetric_iff hS H).1 h i j R (Finset.mem_range.1 hR)]

theorem msum_orth (X : Mode n → Mode n → ℝ) {K : Mode n → Mode n → ℝ} (h : ∀ (i : Mode n) (d : Fin 3), ∑ b, K i (b, d) = 0 ∧ ∑ a, K (a, d) i = 0) :
    ∑ i, ∑ j, msum X i j * K i j = 0 := by
  have h1 : ∀ f : Mode n → Fin 3 → ℝ, ∑ i : Mode n, ∑ j : Mode n, f i j.2 * K i j = 0 := by
    intro f
    refine Finset.sum_eq_zero fun i _ => ?_
    rw [Fintype.sum_prod_type, Finset.sum_comm]
    refine Finset.sum_eq_zero fun d _ => ?_
    simp only [← Finset.mul_sum]
    rw [(h i d).1, mul_zero]
  have h2 : ∀ f : Fin 3 → Mode n → ℝ, ∑ i : Mode n, ∑ j : Mode n, f i.2 j * K i j = 0 := by
    intro f
    rw [Finset.sum_comm]
    refine Finset.sum_eq_zero fun j _ => ?_
    rw [Fintype.sum_prod_type, Finset.sum_comm]
    refine Finset.sum_eq_zero fun d _ => ?_
    simp only [← Finset.mul_sum]
    rw [(h j d).2, mul_zero]
  unfold msum
  simp only [sub_mul, Finset.sum_sub_distrib]
  have a := h1 fun i d => 1 / (n : ℝ) * (1 / (n : ℝ) * ∑ a, ∑ b, X (a, i.2) (b, d))
  have b := h1 fun i d => 1 / (n : ℝ) * (∑ b, X i (b, d))
  have c := h2 fun d j => 1 / (n : ℝ) * ∑ a, X (a, d) j
  rw [a, b, c]
  ring

theorem inner_const (X : Mode n → Mode n → ℝ) (H : Grads n) : inner S (fun i j _ => X i j) H = ∑ i, ∑ j, X i j * tot S H i j := by
  unfold inner tot
  rw [Finset.sum_comm]
  refine Finset.sum_congr rfl fun i _ => ?_
  rw [Finset.sum_comm]
  refine Finset.sum_congr rfl fun j _ => ?_
  rw [Finset.mul_sum]

theorem refine_orth (hS : S.Pos) (F : Grads n) {H : Grads n} (h : Symmetric S H) (h' : SumRule S H) :
    inner S (fun i j R => F i j R - dgradSymmetrize S F i j R) H = 0 := by
  have e : inner S (fun i j R => F i j R - dgradSymmetrize S F i j R) H =
      1 / 2 * inner S F H - 1 / 2 * inner S (fun i j R => F j i (negU S R)) H - inner S (fun i j _ => msum (tot S (symF S F)) i j) H * (1 / (prodSup S : ℝ)) := by
    unfold inner
    simp only [Finset.mul_sum, Finset.sum_mul, ← Finset.sum_sub_distrib]
    refine Finset.sum_congr rfl fun R hR => Finset.sum_congr rfl fun i _ => Finset.sum_congr rfl fun j _ => ?_
    rw [refine_eq hS F i j (Finset.mem_range.1 hR)]
    unfold symF
    ring
  rw [e, inner_flip hS F h, inner_const, msum_orth _ ((sumRule_iff H).1 h')]
  ring

theorem symmetric_sub {F G : Grads n} (h : Symmetric S F) (h' : Symmetric S G) : Symmetric S (fun i j R => F i j R - G i j R) := fun i j c => by
  show F i j _ - G i j _ = F j i _ - G j i _
  rw [h i j c, h' i j c]

theorem sumRule_sub {F G : Grads n} (h : SumRule S F) (h' : SumRule S G) : SumRule S (fun i j R => F i j R - G i j R) := fun i d => by
  simp only [Finset.sum_sub_distrib]
  rw [(h i d).1, (h i d).2, (h' i d).1, (h' i d).2]
  simp

theorem refine_closest (hS : S.Pos) (F : Grads n) {G : Grads n} (h : Symmetric S G) (h' : SumRule S G) :
    distSq S F G = distSq S F (dgradSymmetrize S F) + distSq S (dgradSymmetrize S F) G := by
  have e : distSq S F G = distSq S F (dgradSymmetrize S F) + distSq S (dgradSymmetrize S F) G +
      2 * inner S (fun i j R => F i j R - dgradSymmetrize S F i j R) (fun i j R => dgradSymmetrize S F i j R - G i j R) := by
    unfold distSq inner
    simp only [Finset.mul_sum, ← Finset.sum_add_distrib]
    refine Finset.sum_congr rfl fun R hR => Finset.sum_congr rfl fun i _ => Finset.sum_congr rfl fun j _ => ?_
    ring
  rw [e, refine_orth hS F (symmetric_sub (refine_symm hS F) h) (sumRule_sub (refine_sum hS F) h')]
  ring

end
end Jdftx.Phonon
