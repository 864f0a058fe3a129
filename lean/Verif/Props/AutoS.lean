import Verif.Lemmas.AutoS
import Mathlib.Tactic.FieldSimp
import Mathlib.Tactic.Linarith

/-!
# C24: the automatically chosen FFT box is valid
-/
namespace Jdftx.Grid
open Jdftx.Spec

/-- For every list of rotations (any integer matrices) and every positive minimum size, the search ends (for
every sufficient fuel, with the same result), without undefined behaviour, and in each direction the chosen size is at least the minimum, even, and a product of powers of
2, 3, 5, 7; and each rotation maps the grid to itself: `S[i]*rot(i,j)` is a multiple of `S[j]`. -/
theorem C24_valid_partial (rots : List (Fin 3 → Fin 3 → Int)) (Smin : Fin 3 → Nat) (hS : ∀ k, 1 ≤ Smin k) :
    ∃ S fuel0, (∀ fuel, fuel0 ≤ fuel → autoS fuel rots Smin = .ok S) ∧
      (∀ k, Smin k ≤ S k ∧ 2 ∣ S k ∧ Smooth7 (S k : Int)) ∧
      ∀ m ∈ rots, ∀ i j, (S j : Int) ∣ (S i : Int) * m i j := by
  have h0 : BInv (ratiosOf rots) Smin { Sb := fun _ => 0, done := fun _ => false } :=
    ⟨by simp, by simp, by simp, by simp⟩
  obtain ⟨s1, b1, d1, m1, e1⟩ := block_eventually (ratiosOf rots) Smin hS _ h0 0
  obtain ⟨s2, b2, d2, m2, e2⟩ := block_eventually (ratiosOf rots) Smin hS _ b1 1
  obtain ⟨s3, b3, d3, m3, e3⟩ := block_eventually (ratiosOf rots) Smin hS _ b2 2
  have hall : ∀ i, s3.done i = true := by
    intro i
    have h3 : i = 0 ∨ i = 1 ∨ i = 2 := by revert i; decide
    rcases h3 with rfl | rfl | rfl
    · exact m3 _ (m2 _ d1)
    · exact m3 _ d2
    · exact d3
  have hev : ∀ᶠ f in Filter.atTop, autoS f rots Smin = .ok s3.Sb := by
    filter_upwards [e1, e2, e3] with f f1 f2 f3
    unfold autoS
    simp only
    rw [f1, Res.bind_ok, f2, Res.bind_ok, f3, Res.bind_ok]; rfl
  obtain ⟨f0, hf0⟩ := Filter.eventually_atTop.1 hev
  refine ⟨s3.Sb, f0, hf0, fun k => b3.valid k (hall k), ?_⟩
  intro m hm i j
  by_cases hij : i = j
  · subst hij; exact Dvd.intro _ rfl
  · have h1 := (b3.comm i j hij (hall i) (hall j)).1
    have h2 := ratiosOf_dvd rots m hm i j
    calc (s3.Sb j : Int) ∣ ((ratiosOf rots i j * s3.Sb i : Nat) : Int) := Int.natCast_dvd_natCast.2 h1
      _ = (s3.Sb i : Int) * (ratiosOf rots i j : Int) := by rw [Nat.cast_mul, mul_comm]
      _ ∣ (s3.Sb i : Int) * m i j := mul_dvd_mul_left _ h2

/-- The later check of the symmetries module accepts the chosen box. -/
theorem C24_check_passes (rots : List (Fin 3 → Fin 3 → Int)) (Smin : Fin 3 → Nat) (hS : ∀ k, 1 ≤ Smin k) :
    ∃ S fuel0, (∀ fuel, fuel0 ≤ fuel → autoS fuel rots Smin = .ok S) ∧ ∀ m ∈ rots, commensurate S m := by
  obtain ⟨S, f0, h1, _, h3⟩ := C24_valid_partial rots Smin hS
  exact ⟨S, f0, h1, fun m hm i j => Int.tmod_eq_zero_of_dvd (h3 m hm i j)⟩

/-- The minimum size is positive and fits the density sphere: with `len k` the length of lattice vector `k`,
a grid of at least `Smin` points has a Nyquist plane distance `(S/2) * 2 pi/len` of at least twice the
wavefunction cutoff and at least the charge-density cutoff. -/
theorem C24_cutoff {K : Type} [Field K] [LinearOrder K] [IsStrictOrderedRing K] [FloorRing K]
    (Gmax GmaxRho twoPi : K) (len : Fin 3 → K) (h2 : 0 < twoPi) (hl : ∀ k, 0 < len k) (k : Fin 3) :
    1 ≤ sminOf Gmax GmaxRho twoPi len k ∧
    ∀ S : Nat, sminOf Gmax GmaxRho twoPi len k ≤ S →
      2 * Gmax ≤ (S : K) / 2 * (twoPi / len k) ∧ GmaxRho ≤ (S : K) / 2 * (twoPi / len k) := by
  have hle := le_max_left (1 : Int) (4 * ⌈max Gmax (GmaxRho / 2) * len k / twoPi⌉)
  have hge := le_max_right (1 : Int) (4 * ⌈max Gmax (GmaxRho / 2) * len k / twoPi⌉)
  refine ⟨?_, ?_⟩
  · unfold sminOf
    generalize max (1 : Int) (4 * ⌈max Gmax (GmaxRho / 2) * len k / twoPi⌉) = x at *
    omega
  · intro S hS
    have h1 : 4 * ⌈max Gmax (GmaxRho / 2) * len k / twoPi⌉ ≤ (S : Int) := by
      unfold sminOf at hS
      generalize max (1 : Int) (4 * ⌈max Gmax (GmaxRho / 2) * len k / twoPi⌉) = x at *
      omega
    have h3 : (4 : K) * (max Gmax (GmaxRho / 2) * len k / twoPi) ≤ (S : K) := by
      have h4 := Int.le_ceil (max Gmax (GmaxRho / 2) * len k / twoPi)
      have h5 : (4 : K) * (⌈max Gmax (GmaxRho / 2) * len k / twoPi⌉ : K) ≤ (S : K) := by exact_mod_cast h1
      linarith
    have hl' := hl k
    have key : 2 * max Gmax (GmaxRho / 2) ≤ (S : K) / 2 * (twoPi / len k) := by
      have h6 : (2 : K) * max Gmax (GmaxRho / 2) = 4 * (max Gmax (GmaxRho / 2) * len k / twoPi) / 2 * (twoPi / len k) := by
        field_simp; ring
      rw [h6]
      apply mul_le_mul_of_nonneg_right
      · linarith
      · positivity
    constructor
    · linarith [le_max_left Gmax (GmaxRho / 2)]
    · linarith [le_max_right Gmax (GmaxRho / 2)]

/-- Without any cutoff (minimum size zero, GridInfo.cpp:201,205) the search never ends: the full property
"the search terminates" fails there. -/
theorem C24_no_cutoff_diverges (fuel : Nat) : autoS fuel [] (fun _ => 0) = .error .diverge := by
  have hr : ratiosOf [] = fun _ _ => 0 := rfl
  unfold autoS
  simp only [hr]
  cases fuel with
  | zero => rfl
  | succ k =>
    have hp : processSb (fun _ _ => 0) (k+1) { Sb := fun i => if i = 0 then 1 else 0, done := fun _ => false } 0 =
        .ok { Sb := fun i => if i = 0 then 1 else 0, done := fun i => if i = 0 then true else false } := by
      simp [processSb, visit]; rfl
    have hg : gcdReduce (fun i => if i = 0 then 1 else 0) = .ok fun i => if i = 0 then 1 else 0 := by
      unfold gcdReduce
      simp only [cgcd_eq]
      simp
    have hm : makeSuitable (k+1) (fun i => if i = 0 then 1 else 0) = .ok (fun i => if i = 0 then 1 else 0) := by
      have hs : fftSuitable (k+1) 1 = .ok true := by simp [fftSuitable, strip, Res.bind_ok, Res.pure_eq]
      simp [makeSuitable, suitEntry, hs, Res.bind_ok, Res.pure_eq]
    have hb : block (k+1) (fun _ _ => 0) (fun _ => 0) { Sb := fun _ => 0, done := fun _ => false } 0 = .error .diverge := by
      unfold block
      rw [if_neg (by simp), hp, Res.bind_ok]
      simp only
      rw [hg, Res.bind_ok, hm, Res.bind_ok]
      have : scaleStart (fun _ => 0) (fun i : Fin 3 => if i = 0 then 1 else 0) = 0 := by decide
      rw [this]
      unfold scaleLoop
      have := C25_zero_diverges (k+1)
      simp only [Nat.cast_zero, this, Res.bind_error]
    rw [hb, Res.bind_error]

/-- Hexagonal example: a rotation by 60 degrees couples the first two directions. -/
example : (autoS 60 [fun i j => match i, j with
      | 0, 0 => 0 | 0, 1 => -1 | 0, 2 => 0 | 1, 0 => 1 | 1, 1 => 1 | 1, 2 => 0 | 2, 0 => 0 | 2, 1 => 0 | 2, 2 => 1]
    (fun i => match i with | 0 => 21 | 1 => 17 | 2 => 33)).map (fun S => [S 0, S 1, S 2]) = .ok [24, 24, 36] := by
  decide
/-- An anisotropic case: an entry 2 of the rotation makes the second direction twice as fine, and an entry 11
forces the isotropic fallback. -/
example : (autoS 60 [fun i j => if i = 0 ∧ j = 1 then 2 else if i = 1 ∧ j = 0 then 0 else if i = j then 1 else 0]
    (fun _ => 10)).map (fun S => [S 0, S 1, S 2]) = .ok [10, 20, 10] ∧
  (autoS 60 [fun i j => if i = 0 ∧ j = 1 then 11 else if i = 1 ∧ j = 0 then 0 else if i = j then 1 else 0]
    (fun _ => 10)).map (fun S => [S 0, S 1, S 2]) = .ok [10, 10, 10] := by
  decide

end Jdftx.Grid
