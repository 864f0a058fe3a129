import Verif.Lemmas.Lattice
import Mathlib.Tactic.Linarith
import Mathlib.Tactic.LinearCombination
import Mathlib.Tactic.FinCases

/-!
# Symmetries of (nearly) reduced lattice vectors have entries in -1..1
-/
namespace Jdftx.Lat
open Jdftx.M3

/-- Squared length of the lattice vector with coordinates `x`. -/
noncomputable def qlen (R : Mat ℝ) (x : Fin 3 → Int) : ℝ :=
  dot (mulMV R (fun i => (x i : ℝ))) (mulMV R (fun i => (x i : ℝ)))

/-- Inner products of the lattice vectors. -/
noncomputable def gram (R : Mat ℝ) (i j : Fin 3) : ℝ := dot (column R i) (column R j)

theorem qlen_expand (R : Mat ℝ) (x : Fin 3 → Int) (p q r : Fin 3) (h1 : p ≠ q) (h2 : p ≠ r) (h3 : q ≠ r) :
    qlen R x = (x p : ℝ) ^ 2 * gram R p p + (x q : ℝ) ^ 2 * gram R q q + (x r : ℝ) ^ 2 * gram R r r
      + 2 * (x p * x q * gram R p q + x p * x r * gram R p r + x q * x r * gram R q r) := by
  unfold qlen gram
  fin_cases p <;> fin_cases q <;> fin_cases r <;>
    simp at h1 h2 h3 <;> (simp [dot, mulMV, column, vec]; ring)

/-- The inequality behind the claim: `S1`, `S2`, `S3` are the vectors `u1`, `u1+u2`, `u1+u2+u3`. -/
theorem core (A B C D E F ε lam : ℝ) (hε : 0 ≤ ε) (hl : 9 * ε < lam)
    (h12 : B - ε ≤ A + B + 2 * D) (h12' : A - ε ≤ A + B + 2 * D) (h13 : C - ε ≤ A + C + 2 * E)
    (hA : A - ε ≤ A + B + C + 2 * D + 2 * E + 2 * F) (hB : B - ε ≤ A + B + C + 2 * D + 2 * E + 2 * F) (hC : C - ε ≤ A + B + C + 2 * D + 2 * E + 2 * F)
    (l1 : lam ≤ A) (l2 : lam ≤ A + B + 2 * D) (l3 : lam ≤ A + B + C + 2 * D + 2 * E + 2 * F)
    (α β γ : ℕ) :
    (∀ X, (γ ≠ 0 → X = A ∨ X = B ∨ X = C) → (γ = 0 → β ≠ 0 → X = A ∨ X = B) → (γ = 0 → β = 0 → X = A) → α + β + γ ≠ 0 →
      X - 2 * ε ≤ ((α : ℝ) + β + γ) ^ 2 * A + ((β : ℝ) + γ) ^ 2 * B + (γ : ℝ) ^ 2 * C + 2 * (((α : ℝ) + β + γ) * (β + γ) * D + ((α : ℝ) + β + γ) * γ * E + ((β : ℝ) + γ) * γ * F) ∧
      (2 ≤ α + β + γ →
      X + lam - 3 * ε ≤ ((α : ℝ) + β + γ) ^ 2 * A + ((β : ℝ) + γ) ^ 2 * B + (γ : ℝ) ^ 2 * C + 2 * (((α : ℝ) + β + γ) * (β + γ) * D + ((α : ℝ) + β + γ) * γ * E + ((β : ℝ) + γ) * γ * F))) := by
  intro X hX1 hX2 hX3 hne
  set S1 := A with hS1
  set S2 := A + B + 2 * D with hS2
  set S3 := A + B + C + 2 * D + 2 * E + 2 * F with hS3
  have hexp : ((α : ℝ) + β + γ) ^ 2 * A + ((β : ℝ) + γ) ^ 2 * B + (γ : ℝ) ^ 2 * C + 2 * (((α : ℝ) + β + γ) * (β + γ) * D + ((α : ℝ) + β + γ) * γ * E + ((β : ℝ) + γ) * γ * F)
      = (α : ℝ) ^ 2 * S1 + (β : ℝ) ^ 2 * S2 + (γ : ℝ) ^ 2 * S3 + (α * β : ℝ) * (S1 + S2 - B) + (α * γ : ℝ) * (2 * (A + D + E)) + (β * γ : ℝ) * (S2 + S3 - C) := by
    rw [hS1, hS2, hS3]; ring
  rw [hexp]
  have hα : (0 : ℝ) ≤ α := Nat.cast_nonneg _
  have hβ : (0 : ℝ) ≤ β := Nat.cast_nonneg _
  have hγ : (0 : ℝ) ≤ γ := Nat.cast_nonneg _
  have c12 : 0 ≤ (α * β : ℝ) * (S1 + S2 - B) := mul_nonneg (mul_nonneg hα hβ) (by linarith)
  have c23 : 0 ≤ (β * γ : ℝ) * (S2 + S3 - C) := mul_nonneg (mul_nonneg hβ hγ) (by linarith)
  have c13 : -((α : ℝ) ^ 2 * ε + (γ : ℝ) ^ 2 * ε) ≤ (α * γ : ℝ) * (2 * (A + D + E)) := by
    have h1 : -(2 * ε) ≤ 2 * (A + D + E) := by linarith
    have h2 : (α * γ : ℝ) * -(2 * ε) ≤ (α * γ : ℝ) * (2 * (A + D + E)) := mul_le_mul_of_nonneg_left h1 (mul_nonneg hα hγ)
    have h3 : 0 ≤ ((α : ℝ) - γ) ^ 2 * ε := mul_nonneg (sq_nonneg _) hε
    have h4 : ((α : ℝ) - γ) ^ 2 * ε = (α * γ : ℝ) * -(2 * ε) + ((α : ℝ) ^ 2 * ε + (γ : ℝ) ^ 2 * ε) := by ring
    rw [h4] at h3
    exact le_trans (by linarith only [h3]) h2
  have bound : (α : ℝ) ^ 2 * (S1 - ε) + (β : ℝ) ^ 2 * (S2 - ε) + (γ : ℝ) ^ 2 * (S3 - ε) ≤
      (α : ℝ) ^ 2 * S1 + (β : ℝ) ^ 2 * S2 + (γ : ℝ) ^ 2 * S3 + (α * β : ℝ) * (S1 + S2 - B) + (α * γ : ℝ) * (2 * (A + D + E)) + (β * γ : ℝ) * (S2 + S3 - C) := by
    have h5 : 0 ≤ (β : ℝ) ^ 2 * ε := mul_nonneg (sq_nonneg _) hε
    have h6 : (α : ℝ) ^ 2 * (S1 - ε) + (β : ℝ) ^ 2 * (S2 - ε) + (γ : ℝ) ^ 2 * (S3 - ε)
        = (α : ℝ) ^ 2 * S1 + (β : ℝ) ^ 2 * S2 + (γ : ℝ) ^ 2 * S3 - (β : ℝ) ^ 2 * ε - ((α : ℝ) ^ 2 * ε + (γ : ℝ) ^ 2 * ε) := by ring
    rw [h6]
    linarith only [h5, c12, c23, c13]
  have p1 : lam - ε ≤ S1 - ε := by linarith
  have p2 : lam - ε ≤ S2 - ε := by linarith
  have p3 : lam - ε ≤ S3 - ε := by linarith
  have sq1 : ∀ (n : ℕ) (S : ℝ), lam - ε ≤ S - ε → 0 ≤ (n : ℝ) ^ 2 * (S - ε) := fun n S h => mul_nonneg (sq_nonneg _) (by linarith)
  have sq2 : ∀ (n : ℕ) (S : ℝ), lam - ε ≤ S - ε → n ≠ 0 → S - ε ≤ (n : ℝ) ^ 2 * (S - ε) := by
    intro n S h hn
    have hn' : (1 : ℝ) ≤ n := by exact_mod_cast Nat.one_le_iff_ne_zero.2 hn
    have h0 : 0 ≤ S - ε := by linarith only [h, hl, hε]
    have h1 : (1 : ℝ) ≤ (n : ℝ) ^ 2 := by nlinarith only [hn']
    nlinarith only [mul_le_mul_of_nonneg_right h1 h0]
  have sq3 : ∀ (n : ℕ) (S : ℝ), lam - ε ≤ S - ε → 2 ≤ n → S - ε + (lam - ε) ≤ (n : ℝ) ^ 2 * (S - ε) := by
    intro n S h hn
    have hn' : (2 : ℝ) ≤ n := by exact_mod_cast hn
    have h0 : 0 ≤ S - ε := by linarith only [h, hl, hε]
    have h1 : (4 : ℝ) ≤ (n : ℝ) ^ 2 := by nlinarith only [hn']
    nlinarith only [mul_le_mul_of_nonneg_right h1 h0, h, h0]
  have n1 := sq1 α S1 p1
  have n2 := sq1 β S2 p2
  have n3 := sq1 γ S3 p3
  by_cases hg : γ = 0
  · by_cases hb : β = 0
    · have hXA := hX3 hg hb
      have ha : α ≠ 0 := by omega
      have m1 := sq2 α S1 p1 ha
      refine ⟨by linarith, fun h2 => ?_⟩
      have := sq3 α S1 p1 (by omega)
      linarith
    · have m2 := sq2 β S2 p2 hb
      have hXS : X - ε ≤ S2 := by rcases hX2 hg hb with h | h <;> rw [h] <;> assumption
      refine ⟨by linarith, fun h2 => ?_⟩
      by_cases ha : α = 0
      · have := sq3 β S2 p2 (by omega)
        linarith
      · have m1 := sq2 α S1 p1 ha
        linarith
  · have m3 := sq2 γ S3 p3 hg
    have hXS : X - ε ≤ S3 := by rcases hX1 hg with h | h | h <;> rw [h] <;> assumption
    refine ⟨by linarith, fun h2 => ?_⟩
    by_cases ha : α = 0
    · by_cases hb : β = 0
      · have := sq3 γ S3 p3 (by omega)
        linarith
      · have m2 := sq2 β S2 p2 hb
        linarith
    · have m1 := sq2 α S1 p1 ha
      linarith

theorem sorted3 (x : Fin 3 → Int) : ∃ p q r : Fin 3, p ≠ q ∧ p ≠ r ∧ q ≠ r ∧ |x q| ≤ |x p| ∧ |x r| ≤ |x q| := by
  rcases le_total |x 0| |x 1| with h01 | h01 <;> rcases le_total |x 0| |x 2| with h02 | h02 <;> rcases le_total |x 1| |x 2| with h12 | h12
  · exact ⟨2, 1, 0, by decide, by decide, by decide, h12, h01⟩
  · exact ⟨1, 2, 0, by decide, by decide, by decide, h12, h02⟩
  · exact ⟨2, 1, 0, by decide, by decide, by decide, h12, h01⟩
  · exact ⟨1, 0, 2, by decide, by decide, by decide, h01, h02⟩
  · exact ⟨2, 0, 1, by decide, by decide, by decide, h02, h01⟩
  · exact ⟨2, 0, 1, by decide, by decide, by decide, h02, h01⟩
  · exact ⟨0, 2, 1, by decide, by decide, by decide, h02, h12⟩
  · exact ⟨0, 1, 2, by decide, by decide, by decide, h01, h12⟩

/-- A unit with the sign of an integer. -/
def sgn (z : Int) : Int := if 0 ≤ z then 1 else -1

theorem sgn_abs (z : Int) : sgn z * |z| = z := by
  unfold sgn; split
  · rw [abs_of_nonneg (by assumption), one_mul]
  · rw [abs_of_neg (by omega)]; ring

theorem sgn_sq (z : Int) : (sgn z : ℝ) ^ 2 = 1 := by unfold sgn; split <;> norm_num

/-- `R` is reduced up to `ε`: combining vectors with coefficients in `-1..1` gives no vector shorter than one taking part by more than `ε` (in
squared length). -/
def NearReduced (R : Mat ℝ) (ε : ℝ) : Prop :=
  ∀ d : Fin 3 → Int, (∀ i, -1 ≤ d i ∧ d i ≤ 1) → ∀ k, d k ≠ 0 → gram R k k - ε ≤ qlen R d

/-- Squared lengths of integer combinations of nearly reduced vectors. -/
theorem qlen_bound (R : Mat ℝ) (ε lam : ℝ) (hε : 0 ≤ ε) (hl : 9 * ε < lam) (hr : NearReduced R ε) (hmin : ∀ d : Fin 3 → Int, d ≠ 0 → lam ≤ qlen R d)
    (x : Fin 3 → Int) (k : Fin 3) (hk : x k ≠ 0) :
    gram R k k - 2 * ε ≤ qlen R x ∧ ((∃ i, 2 ≤ |x i|) → gram R k k + lam - 3 * ε ≤ qlen R x) := by
  obtain ⟨p, q, r, h1, h2, h3, hqp, hrq⟩ := sorted3 x
  have hall : ∀ i : Fin 3, i = p ∨ i = q ∨ i = r := by
    intro i
    clear hqp hrq
    revert i p q r; decide
  -- sign vectors
  let s : Fin 3 → Int := fun i => sgn (x i)
  have ss : ∀ i, -1 ≤ s i ∧ s i ≤ 1 ∧ s i ≠ 0 := by
    intro i; simp only [s, sgn]; split <;> decide
  let d (a b c : Int) : Fin 3 → Int := fun i => if i = p then a * s p else if i = q then b * s q else c * s r
  have dp : ∀ a b c, d a b c p = a * s p := fun a b c => by simp [d]
  have dq : ∀ a b c, d a b c q = b * s q := fun a b c => by simp [d, h1.symm]
  have dr : ∀ a b c, d a b c r = c * s r := fun a b c => by simp [d, h2.symm, h3.symm]
  have hd01 : ∀ a b c : Int, (a = 0 ∨ a = 1) → (b = 0 ∨ b = 1) → (c = 0 ∨ c = 1) → ∀ i, -1 ≤ d a b c i ∧ d a b c i ≤ 1 := by
    intro a b c ha hb hc i
    rcases hall i with h | h | h
    · rw [h, dp]; have := ss p; rcases ha with rfl | rfl <;> constructor <;> omega
    · rw [h, dq]; have := ss q; rcases hb with rfl | rfl <;> constructor <;> omega
    · rw [h, dr]; have := ss r; rcases hc with rfl | rfl <;> constructor <;> omega
  have hqd : ∀ a b c : Int, qlen R (d a b c) = (a : ℝ) ^ 2 * gram R p p + (b : ℝ) ^ 2 * gram R q q + (c : ℝ) ^ 2 * gram R r r
      + 2 * (a * b * (s p * s q * gram R p q) + a * c * (s p * s r * gram R p r) + b * c * (s q * s r * gram R q r)) := by
    intro a b c
    rw [qlen_expand R _ p q r h1 h2 h3, dp, dq, dr]
    push_cast
    have e1 : (s p : ℝ) ^ 2 = 1 := sgn_sq _
    have e2 : (s q : ℝ) ^ 2 = 1 := sgn_sq _
    have e3 : (s r : ℝ) ^ 2 = 1 := sgn_sq _
    linear_combination (a : ℝ) ^ 2 * gram R p p * e1 + (b : ℝ) ^ 2 * gram R q q * e2 + (c : ℝ) ^ 2 * gram R r r * e3
  have red : ∀ a b c : Int, (a = 0 ∨ a = 1) → (b = 0 ∨ b = 1) → (c = 0 ∨ c = 1) → (a = 1 → gram R p p - ε ≤ qlen R (d a b c)) ∧ (b = 1 → gram R q q - ε ≤ qlen R (d a b c)) ∧
      (c = 1 → gram R r r - ε ≤ qlen R (d a b c)) := by
    intro a b c ha hb hc
    refine ⟨fun h => hr _ (hd01 a b c ha hb hc) p ?_, fun h => hr _ (hd01 a b c ha hb hc) q ?_, fun h => hr _ (hd01 a b c ha hb hc) r ?_⟩
    · rw [dp, h, one_mul]; exact (ss p).2.2
    · rw [dq, h, one_mul]; exact (ss q).2.2
    · rw [dr, h, one_mul]; exact (ss r).2.2
  have r12 := red 1 1 0 (Or.inr rfl) (Or.inr rfl) (Or.inl rfl)
  have r13 := red 1 0 1 (Or.inr rfl) (Or.inl rfl) (Or.inr rfl)
  have r123 := red 1 1 1 (Or.inr rfl) (Or.inr rfl) (Or.inr rfl)
  have m1 := hmin (d 1 0 0) (fun h => by have := congrFun h p; rw [dp] at this; exact (ss p).2.2 (by simpa using this))
  have m2 := hmin (d 1 1 0) (fun h => by have := congrFun h p; rw [dp] at this; exact (ss p).2.2 (by simpa using this))
  have m3 := hmin (d 1 1 1) (fun h => by have := congrFun h p; rw [dp] at this; exact (ss p).2.2 (by simpa using this))
  rw [hqd] at r12 r13 r123 m1 m2 m3
  -- coordinates as nested sums
  obtain ⟨α, hα⟩ := Int.eq_ofNat_of_zero_le (show 0 ≤ |x p| - |x q| by omega)
  obtain ⟨β, hβ⟩ := Int.eq_ofNat_of_zero_le (show 0 ≤ |x q| - |x r| by omega)
  obtain ⟨γ, hγ⟩ := Int.eq_ofNat_of_zero_le (abs_nonneg (x r))
  have xp : |x p| = (α : Int) + β + γ := by omega
  have xq : |x q| = (β : Int) + γ := by omega
  have hx : x = d ((α : Int) + β + γ) ((β : Int) + γ) (γ : Int) := by
    funext i
    rcases hall i with h | h | h
    · rw [h, dp, ← xp, mul_comm]; exact (sgn_abs _).symm
    · rw [h, dq, ← xq, mul_comm]; exact (sgn_abs _).symm
    · rw [h, dr, ← hγ, mul_comm]; exact (sgn_abs _).symm
  have hqx : qlen R x = ((α : ℝ) + β + γ) ^ 2 * gram R p p + ((β : ℝ) + γ) ^ 2 * gram R q q + (γ : ℝ) ^ 2 * gram R r r
      + 2 * (((α : ℝ) + β + γ) * (β + γ) * (s p * s q * gram R p q) + ((α : ℝ) + β + γ) * γ * (s p * s r * gram R p r) + ((β : ℝ) + γ) * γ * (s q * s r * gram R q r)) := by
    conv_lhs => rw [hx]
    rw [hqd]; push_cast; ring
  have hsup : ∀ i, x i ≠ 0 → |x i| ≠ 0 := fun i h => by simpa using h
  have kk := hsup k hk
  have c := core (gram R p p) (gram R q q) (gram R r r) (s p * s q * gram R p q) (s p * s r * gram R p r) (s q * s r * gram R q r) ε lam hε hl
    (by have := r12.2.1 rfl; push_cast at this; linarith) (by have := r12.1 rfl; push_cast at this; linarith) (by have := r13.2.2 rfl; push_cast at this; linarith)
    (by have := r123.1 rfl; push_cast at this; linarith) (by have := r123.2.1 rfl; push_cast at this; linarith) (by have := r123.2.2 rfl; push_cast at this; linarith)
    (by push_cast at m1; linarith) (by push_cast at m2; linarith) (by push_cast at m3; linarith) α β γ (gram R k k)
    (fun _ => by rcases hall k with h | h | h <;> simp [h])
    (fun hg hb => by
      rcases hall k with h | h | h
      · simp [h]
      · simp [h]
      · rw [h] at kk; omega)
    (fun hg hb => by
      rcases hall k with h | h | h
      · simp [h]
      · rw [h] at kk; omega
      · rw [h] at kk; omega)
    (by
      rcases hall k with h | h | h <;> rw [h] at kk <;> omega)
  rw [hqx]
  refine ⟨c.1, fun hi => c.2 ?_⟩
  obtain ⟨i, hi⟩ := hi
  rcases hall i with h | h | h <;> rw [h] at hi <;> omega

/-- Columns outside: a matrix whose columns in `U` and `j` have entries only in the rows of `U` is singular. -/
theorem singular_of_support (m : Mat Int) (U : Fin 3 → Bool) (j : Fin 3) (hj : U j = false) (hU : ∀ i, U i = true → ∀ k, U k = false → m k i = 0)
    (hjU : ∀ k, U k = false → m k j = 0) : (Matrix.of m).det = 0 := by
  rw [← det_eq]
  have hz : ∀ i k, (U i = true ∨ i = j) → U k = false → m k i = 0 := by
    rintro i k (h | h) hk
    · exact hU i h k hk
    · rw [h]; exact hjU k hk
  have e : ∀ i k, m k i = 0 ∨ ¬(U i = true ∨ i = j) ∨ U k = true := by
    intro i k
    by_cases h1 : U i = true ∨ i = j
    · cases hk : U k with
      | true => exact Or.inr (Or.inr rfl)
      | false => exact Or.inl (hz i k h1 hk)
    · exact Or.inr (Or.inl h1)
  simp only [det, box, dot, cross, row, vec]
  cases h0 : U 0 <;> cases h1 : U 1 <;> cases h2 : U 2 <;> fin_cases j <;> simp_all

/-- **Symmetries of nearly reduced vectors.** -/
theorem entries_bound (R : Mat ℝ) (ε lam : ℝ) (hε : 0 ≤ ε) (hl : 9 * ε < lam) (hr : NearReduced R ε) (hmin : ∀ d : Fin 3 → Int, d ≠ 0 → lam ≤ qlen R d)
    (m : Mat Int) (hdet : (Matrix.of m).det ≠ 0) (hm : ∀ j, qlen R (fun i => m i j) = gram R j j) (a b : Fin 3) : -1 ≤ m a b ∧ m a b ≤ 1 := by
  by_contra hcon
  apply hdet
  have h2 : 2 ≤ |m a b| := by
    by_contra h; apply hcon
    have : |m a b| ≤ 1 := by omega
    exact abs_le.1 this
  -- levels
  let lev (n : ℕ) : Fin 3 → Prop := fun k => gram R k k ≤ gram R b b - lam + 3 * ε + 2 * n * ε
  have hmono : ∀ n k, lev n k → lev (n + 1) k := by
    intro n k h
    simp only [lev] at h ⊢
    push_cast
    linarith
  have hstep : ∀ n i, lev n i → ∀ k, m k i ≠ 0 → lev (n + 1) k := by
    intro n i h k hk
    have := (qlen_bound R ε lam hε hl hr hmin (fun t => m t i) k hk).1
    rw [hm i] at this
    simp only [lev] at h ⊢
    push_cast
    linarith
  have hb0 : ∀ k, m k b ≠ 0 → lev 0 k := by
    intro k hk
    have := (qlen_bound R ε lam hε hl hr hmin (fun t => m t b) k hk).2 ⟨a, h2⟩
    rw [hm b] at this
    simp only [lev]
    push_cast
    linarith
  have hbn : ∀ n, n ≤ 3 → ¬lev n b := by
    intro n hn h
    simp only [lev] at h
    have : (n : ℝ) ≤ 3 := by exact_mod_cast hn
    nlinarith
  have hmono2 : ∀ n k, lev 0 k → lev n k := by
    intro n k h
    induction n with
    | zero => exact h
    | succ n ih => exact hmono n k ih
  classical
  -- a level that is closed
  obtain ⟨n, hn, hclosed⟩ : ∃ n, n < 3 ∧ ∀ k, lev (n + 1) k → lev n k := by
    by_contra hno
    push Not at hno
    obtain ⟨k0, a0, b0⟩ := hno 0 (by decide)
    obtain ⟨k1, a1, b1⟩ := hno 1 (by decide)
    obtain ⟨k2, a2, b2⟩ := hno 2 (by decide)
    have c0 : lev 3 k0 := hmono _ _ (hmono _ _ a0)
    have c1 : lev 3 k1 := hmono _ _ a1
    have c2 : lev 3 k2 := a2
    have e01 : k0 ≠ k1 := fun h => b1 (h ▸ a0)
    have e02 : k0 ≠ k2 := fun h => b2 (h ▸ hmono _ _ a0)
    have e12 : k1 ≠ k2 := fun h => b2 (h ▸ a1)
    have : b = k0 ∨ b = k1 ∨ b = k2 := by
      clear * - e01 e02 e12
      revert b k0 k1 k2; decide
    rcases this with h | h | h
    · exact hbn 3 le_rfl (h ▸ c0)
    · exact hbn 3 le_rfl (h ▸ c1)
    · exact hbn 3 le_rfl (h ▸ c2)
  refine singular_of_support m (fun k => decide (lev n k)) b ?_ ?_ ?_
  · exact decide_eq_false (hbn n (by omega))
  · intro i hi k hk
    have hi' : lev n i := of_decide_eq_true hi
    have hk' : ¬lev n k := of_decide_eq_false hk
    by_contra hne
    exact hk' (hclosed k (hstep n i hi' k hne))
  · intro k hk
    have hk' : ¬lev n k := of_decide_eq_false hk
    by_contra hne
    exact hk' (hmono2 n k (hb0 k hne))

end Jdftx.Lat
