import Verif.Model.FftSuitable
import Verif.Spec.FftBox
import Verif.Lemmas.Res
import Mathlib.Tactic.NormNum.Prime
import Mathlib.Tactic.Ring
import Mathlib.Tactic.Positivity
import Mathlib.Tactic.Push
import Mathlib.Algebra.Order.Ring.Int
import Mathlib.RingTheory.Coprime.Lemmas
import Mathlib.RingTheory.Int.Basic

/-!
# C25: the FFT suitability test is exact
-/
namespace Jdftx.Grid
open Jdftx.Spec

/-- The inner loop ends on every non-zero integer, having removed exactly the powers of `p`. -/
theorem strip_spec (p : Int) (hp : 2 ≤ p) (n : Int) (hn : n ≠ 0) (fuel : Nat) (hf : n.natAbs < fuel) :
    ∃ m : Int, ∃ a : Nat, strip p fuel n = .ok m ∧ n = p ^ a * m ∧ ¬ p ∣ m ∧ m ≠ 0 ∧ m.natAbs ≤ n.natAbs := by
  induction fuel generalizing n with
  | zero => omega
  | succ k ih =>
    unfold strip
    split
    · rename_i h
      have hd : p ∣ n := Int.dvd_of_tmod_eq_zero h
      obtain ⟨q, rfl⟩ := hd
      have hq : (p * q).tdiv p = q := Int.mul_tdiv_cancel_left _ (by omega)
      have hq0 : q ≠ 0 := by rintro rfl; simp at hn
      rw [hq]
      have hlt : q.natAbs < (p * q).natAbs := by
        rw [Int.natAbs_mul]
        have h1 : 2 ≤ p.natAbs := by omega
        have h2 : 0 < q.natAbs := by omega
        calc q.natAbs < 2 * q.natAbs := by omega
          _ ≤ p.natAbs * q.natAbs := Nat.mul_le_mul_right _ h1
      obtain ⟨m, a, h1, h2, h3, h4, h5⟩ := ih q hq0 (by omega)
      exact ⟨m, a + 1, h1, by rw [h2]; ring, h3, h4, by omega⟩
    · rename_i h
      exact ⟨n, 0, rfl, by simp, fun hd => h (Int.tmod_eq_zero_of_dvd hd), hn, le_refl _⟩

/-- The result for every non-zero integer with enough fuel. -/
theorem fftSuitable_spec (N : Int) (hN : N ≠ 0) (fuel : Nat) (hf : N.natAbs < fuel) :
    ∃ b, fftSuitable fuel N = .ok b ∧ (b = true ↔ Smooth7 N) := by
  obtain ⟨m2, a2, e2, f2, d2, n2, l2⟩ := strip_spec 2 (by norm_num) N hN fuel hf
  obtain ⟨m3, a3, e3, f3, d3, n3, l3⟩ := strip_spec 3 (by norm_num) m2 n2 fuel (by omega)
  obtain ⟨m5, a5, e5, f5, d5, n5, l5⟩ := strip_spec 5 (by norm_num) m3 n3 fuel (by omega)
  obtain ⟨m7, a7, e7, f7, d7, n7, l7⟩ := strip_spec 7 (by norm_num) m5 n5 fuel (by omega)
  refine ⟨decide (m7 = 1), ?_, ?_⟩
  · simp only [fftSuitable, e2, e3, e5, e7, Res.bind_ok]
    rfl
  rw [decide_eq_true_eq]
  constructor
  · rintro rfl
    exact ⟨a2, a3, a5, a7, by rw [f2, f3, f5, f7]; ring⟩
  · rintro ⟨a, b, c, d, h⟩
    have hpos : 0 < N := by rw [h]; positivity
    have hN' : N = 2 ^ a2 * 3 ^ a3 * 5 ^ a5 * 7 ^ a7 * m7 := by rw [f2, f3, f5, f7]; ring
    have hm : 0 < m7 := by
      rw [hN'] at hpos
      exact pos_of_mul_pos_right hpos (by positivity)
    have hc : ∀ p : Int, Prime p → ¬ p ∣ m7 → IsCoprime m7 p := by
      intro p hp hd
      exact ((Prime.coprime_iff_not_dvd hp).2 hd).symm
    have e5 : m7 ∣ m5 := ⟨7 ^ a7, by rw [f7]; ring⟩
    have e3' : m7 ∣ m3 := e5.trans ⟨5 ^ a5, by rw [f5]; ring⟩
    have e2' : m7 ∣ m2 := e3'.trans ⟨3 ^ a3, by rw [f3]; ring⟩
    have c2 := hc 2 Int.prime_two (fun h => d2 (h.trans e2'))
    have c3 := hc 3 Int.prime_three (fun h => d3 (h.trans e3'))
    have c5 := hc 5 (Int.prime_iff_natAbs_prime.2 (by norm_num)) (fun h => d5 (h.trans e5))
    have c7 := hc 7 (Int.prime_iff_natAbs_prime.2 (by norm_num)) d7
    have hcop : IsCoprime m7 (2 ^ a * 3 ^ b * 5 ^ c * 7 ^ d) :=
      ((c2.pow_right.mul_right c3.pow_right).mul_right c5.pow_right).mul_right c7.pow_right
    have hdvd : m7 ∣ 2 ^ a * 3 ^ b * 5 ^ c * 7 ^ d := by
      rw [← h, hN']; exact Dvd.intro_left _ rfl
    have hu : IsUnit m7 := hcop.isUnit_of_dvd' (dvd_refl _) hdvd
    rcases Int.isUnit_iff.1 hu with h | h <;> omega

/-- For every non-zero integer the test ends, and it answers yes exactly for products of powers of
2, 3, 5, 7 (in particular no for negative numbers). -/
theorem C25_exact_partial (N : Int) (hN : N ≠ 0) :
    ∃ b fuel0, (∀ fuel, fuel0 ≤ fuel → fftSuitable fuel N = .ok b) ∧ (b = true ↔ Smooth7 N) := by
  obtain ⟨b, h1, h2⟩ := fftSuitable_spec N hN (N.natAbs + 1) (by omega)
  refine ⟨b, N.natAbs + 1, fun fuel hf => ?_, h2⟩
  obtain ⟨b', h3, h4⟩ := fftSuitable_spec N hN fuel (by omega)
  have : b' = b := by
    rw [Bool.eq_iff_iff, h2, h4]
  rw [h3, this]

/-- On zero the test never ends, so "terminates on every integer" is false. -/
theorem C25_zero_diverges (fuel : Nat) : fftSuitable fuel 0 = .error .diverge := by
  have h : ∀ fuel, strip 2 fuel 0 = .error .diverge := by
    intro fuel
    induction fuel with
    | zero => rfl
    | succ k ih => simpa [strip] using ih
  simp only [fftSuitable, h]; rfl

example : fftSuitable 100 48 = .ok true ∧ fftSuitable 100 22 = .ok false ∧ fftSuitable 100 (-4) = .ok false := by
  decide
example : ∃ b fuel0, (∀ fuel, fuel0 ≤ fuel → fftSuitable fuel 360 = .ok b) ∧ (b = true ↔ Smooth7 360) :=
  C25_exact_partial 360 (by norm_num)

end Jdftx.Grid
