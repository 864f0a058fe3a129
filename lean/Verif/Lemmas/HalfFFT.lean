import Verif.Model.ExCorr
import Verif.Spec.BoxField
import Verif.Lemmas.BoxField
import Verif.Lemmas.ExCorr
import Mathlib.Algebra.Field.GeomSum

/-!
# Lemmas about the transforms between real fields and half-space Fourier components
-/
namespace Jdftx.ExCorr
open Box
open ComplexConjugate
noncomputable section

/-- Phase factor in one direction. -/
def ph (s : Nat) (a r : Int) : ℂ := Complex.exp (2 * Real.pi * Complex.I * (a * r / s))

theorem ph_add (s : Nat) (a r r' : Int) : ph s a (r + r') = ph s a r * ph s a r' := by
  unfold ph; rw [← Complex.exp_add]; congr 1; push_cast; ring

theorem ph_comm (s : Nat) (a r : Int) : ph s a r = ph s r a := by unfold ph; congr 1; ring

theorem ph_add' (s : Nat) (a b r : Int) : ph s (a + b) r = ph s a r * ph s b r := by
  rw [ph_comm, ph_add, ph_comm s r a, ph_comm s r b]

theorem ph_dvd (s : Nat) (hs : 0 < s) (a r : Int) (h : (s : Int) ∣ r) : ph s a r = 1 := by
  obtain ⟨k, rfl⟩ := h
  have hs' : (s : ℂ) ≠ 0 := by exact_mod_cast hs.ne'
  unfold ph
  rw [Complex.exp_eq_one_iff]
  refine ⟨a * k, ?_⟩
  push_cast; field_simp

theorem ph_conj (s : Nat) (a r : Int) : conj (ph s a r) = ph s a (-r) := by
  unfold ph
  rw [← Complex.exp_conj]
  congr 1
  simp only [map_mul, map_div₀, Complex.conj_ofReal, Complex.conj_I, map_intCast, map_natCast, map_ofNat]
  push_cast; ring

theorem ph_fold (s : Nat) (hs : 0 < s) (a r : Int) : ph s (fold1 s a) r = ph s a r := by
  unfold fold1
  split
  · rw [show a - s = a + -(s : Int) by ring, ph_add', ph_comm s (-(s : Int)), ph_dvd s hs r _ (by simp), mul_one]
  · rfl

theorem ph_eq_one (s : Nat) (hs : 0 < s) (r : Int) : ph s 1 r = 1 ↔ (s : Int) ∣ r := by
  constructor
  · intro h
    unfold ph at h
    rw [Complex.exp_eq_one_iff] at h
    obtain ⟨k, hk⟩ := h
    have hs' : (s : ℂ) ≠ 0 := by exact_mod_cast hs.ne'
    have hpi : (2 * Real.pi * Complex.I : ℂ) ≠ 0 := by simp [Real.pi_ne_zero]
    have e : (r : ℂ) = s * k := by
      have := mul_left_cancel₀ hpi (hk.trans (mul_comm _ _))
      push_cast at this
      field_simp at this
      linear_combination this
    exact ⟨k, by exact_mod_cast e⟩
  · exact ph_dvd s hs 1 r

theorem ph_pow (s : Nat) (a : Nat) (r : Int) : ph s a r = ph s 1 r ^ a := by
  unfold ph; rw [← Complex.exp_nat_mul]; congr 1; push_cast; ring

theorem ph_sum (s : Nat) (hs : 0 < s) (r : Int) : ∑ a ∈ Finset.range s, ph s a r = if (s : Int) ∣ r then (s : ℂ) else 0 := by
  split
  · next h => simp [ph_dvd s hs _ r h]
  · next h =>
    have h1 : ph s 1 r ≠ 1 := fun e => h ((ph_eq_one s hs r).1 e)
    have h2 : ph s 1 r ^ s = 1 := by rw [← ph_pow, ph_comm]; exact ph_dvd s hs r _ (dvd_refl _)
    simp only [ph_pow s _ r]
    have := geom_sum_eq h1 s
    rw [this, h2]; simp

theorem chi_eq (S : Size) (hS : S.Pos) (i j : Nat) :
    chi S i j = ph S.s0 (i / (size2 S * S.s1) : Nat) (rStart S j).x * ph S.s1 ((i / size2 S) % S.s1 : Nat) (rStart S j).y
      * ph S.s2 (i % size2 S : Nat) (rStart S j).z := by
  rw [← ph_fold S.s0 hS.1, ← ph_fold S.s1 hS.2.1, ← ph_fold S.s2 hS.2.2]
  unfold ph chi
  rw [← Complex.exp_add, ← Complex.exp_add]
  congr 1
  simp only [hStart]
  ring

theorem chi_ph (S : Size) (i j : Nat) :
    chi S i j = ph S.s0 (hStart S i).x (rStart S j).x * ph S.s1 (hStart S i).y (rStart S j).y * ph S.s2 (hStart S i).z (rStart S j).z := by
  unfold ph chi
  rw [← Complex.exp_add, ← Complex.exp_add]
  congr 1
  ring

/-! ### Sums over the half space -/

theorem sum_half (S : Size) (f : Nat → Nat → Nat → ℝ) :
    ∑ i ∈ Finset.range (nG S), f (i / (size2 S * S.s1)) (i / size2 S % S.s1) (i % size2 S)
      = ∑ x ∈ Finset.range S.s0, ∑ y ∈ Finset.range S.s1, ∑ z ∈ Finset.range (size2 S), f x y z := by
  have h2 : 0 < size2 S := by unfold size2; omega
  have hn : nG S = S.s0 * S.s1 * size2 S := rfl
  rw [hn, sum_range_mul', sum_range_mul']
  refine Finset.sum_congr rfl fun x hx => Finset.sum_congr rfl fun y hy => Finset.sum_congr rfl fun z hz => ?_
  have hy' := Finset.mem_range.1 hy
  have hz' := Finset.mem_range.1 hz
  have e1 : ((x * S.s1 + y) * size2 S + z) / size2 S = x * S.s1 + y := by
    rw [mul_comm, Nat.mul_add_div h2, Nat.div_eq_of_lt hz', add_zero]
  have e2 : (x * S.s1 + y) / S.s1 = x := by
    rw [mul_comm, Nat.mul_add_div (by omega), Nat.div_eq_of_lt hy', add_zero]
  have e3 : (x * S.s1 + y) % S.s1 = y := by
    rw [mul_comm, Nat.mul_add_mod, Nat.mod_eq_of_lt hy']
  have e4 : ((x * S.s1 + y) * size2 S + z) % size2 S = z := by
    rw [mul_comm, Nat.mul_add_mod, Nat.mod_eq_of_lt hz']
  rw [← Nat.div_div_eq_div_mul, e1, e2, e3, e4]

/-- The weights count each pair of opposite vectors: sums over half a period equal sums over the full period. -/
theorem sum_weight (s : Nat) (hs : 0 < s) (P : Nat → ℝ) (hP : ∀ z, 0 < z → z < s → P (s - z) = P z) :
    ∑ z ∈ Finset.range (s / 2 + 1), (if z = 0 ∨ 2 * z = s then 1 else 2) * P z = ∑ z ∈ Finset.range s, P z := by
  rcases Nat.even_or_odd' s with ⟨m, rfl | rfl⟩
  · have hm : 0 < m := by omega
    rw [sum_even P m hm hP, show 2 * m / 2 = m by omega]
    obtain ⟨k, rfl⟩ : ∃ k, m = k + 1 := ⟨m - 1, by omega⟩
    rw [Finset.sum_range_succ, Finset.sum_range_succ', Finset.sum_range_succ (n := k + 1), Finset.sum_range_succ' (n := k)]
    have : ∀ x ∈ Finset.range k, (if x + 1 = 0 ∨ 2 * (x + 1) = 2 * (k + 1) then (1 : ℝ) else 2) * P (x + 1) = 2 * P (x + 1) := by
      intro x hx
      have := Finset.mem_range.1 hx
      rw [if_neg (by omega)]
    rw [Finset.sum_congr rfl this, ← Finset.mul_sum, if_pos (Or.inl rfl), if_pos (Or.inr rfl)]
    ring
  · rw [show (2 * m + 1) / 2 = m by omega, show 2 * m + 1 = (m + 1) + m by ring]
    have e2 : ∑ x ∈ Finset.range m, P (m + 1 + x) = ∑ x ∈ Finset.range m, P (x + 1) := by
      rw [← Finset.sum_range_reflect]
      refine Finset.sum_congr rfl fun x hx => ?_
      have hx' := Finset.mem_range.1 hx
      rw [← hP (x + 1) (by omega) (by omega)]
      congr 1; omega
    rw [Finset.sum_range_add (n := m + 1), e2, Finset.sum_range_succ', Finset.sum_range_succ']
    have : ∀ x ∈ Finset.range m, (if x + 1 = 0 ∨ 2 * (x + 1) = m + 1 + m then (1 : ℝ) else 2) * P (x + 1) = 2 * P (x + 1) := by
      intro x hx
      rw [if_neg (by omega)]
    rw [Finset.sum_congr rfl this, ← Finset.mul_sum, if_pos (Or.inl rfl)]
    ring

theorem weight_eq (S : Size) (i : Nat) : weight S i = if i % size2 S = 0 ∨ 2 * (i % size2 S) = S.s2 then 1 else 2 := by
  have h2 : i % size2 S < S.s2 / 2 + 1 := Nat.mod_lt _ (by unfold size2; omega)
  have e : (hStart S i).z = (i % size2 S : Nat) := by
    simp only [hStart, fold1]
    rw [if_neg (by omega)]
  unfold weight
  rw [e]
  norm_cast

/-- The kernel of the transform to reciprocal space and back. -/
theorem kernel (S : Size) (hS : S.Pos) (rx ry rz : Int) :
    ∑ i ∈ Finset.range (nG S), weight S i * (ph S.s0 (i / (size2 S * S.s1) : Nat) rx * ph S.s1 ((i / size2 S) % S.s1 : Nat) ry
      * ph S.s2 (i % size2 S : Nat) rz).re
      = if (S.s0 : Int) ∣ rx ∧ (S.s1 : Int) ∣ ry ∧ (S.s2 : Int) ∣ rz then (nr S : ℝ) else 0 := by
  simp only [weight_eq]
  rw [sum_half S fun x y z => (if z = 0 ∨ 2 * z = S.s2 then 1 else 2) * (ph S.s0 x rx * ph S.s1 y ry * ph S.s2 z rz).re]
  have e : ∀ z : Nat, ∑ x ∈ Finset.range S.s0, ∑ y ∈ Finset.range S.s1, (ph S.s0 x rx * ph S.s1 y ry * ph S.s2 z rz).re
      = (if (S.s0 : Int) ∣ rx ∧ (S.s1 : Int) ∣ ry then (S.s0 * S.s1 : ℝ) else 0) * (ph S.s2 z rz).re := by
    intro z
    have : (∑ x ∈ Finset.range S.s0, ph S.s0 x rx) * (∑ y ∈ Finset.range S.s1, ph S.s1 y ry) * ph S.s2 z rz
        = ∑ x ∈ Finset.range S.s0, ∑ y ∈ Finset.range S.s1, ph S.s0 x rx * ph S.s1 y ry * ph S.s2 z rz := by
      rw [Finset.sum_mul_sum, Finset.sum_mul]
      exact Finset.sum_congr rfl fun x _ => Finset.sum_mul _ _ _
    have h2 := congrArg Complex.re this
    simp only [Complex.re_sum] at h2
    rw [← h2, ph_sum _ hS.1, ph_sum _ hS.2.1]
    by_cases h0 : (S.s0 : Int) ∣ rx
    · by_cases h1 : (S.s1 : Int) ∣ ry
      · rw [if_pos h0, if_pos h1, if_pos ⟨h0, h1⟩]
        rw [show ((S.s0 : ℂ) * S.s1) = ((S.s0 * S.s1 : ℝ) : ℂ) by push_cast; ring, Complex.re_ofReal_mul]
      · have h : ¬((S.s0 : Int) ∣ rx ∧ (S.s1 : Int) ∣ ry) := fun h => h1 h.2
        rw [if_neg h1, if_neg h]; simp
    · have h : ¬((S.s0 : Int) ∣ rx ∧ (S.s1 : Int) ∣ ry) := fun h => h0 h.1
      rw [if_neg h0, if_neg h]; simp
  have e2 : ∑ x ∈ Finset.range S.s0, ∑ y ∈ Finset.range S.s1, ∑ z ∈ Finset.range (size2 S),
      (if z = 0 ∨ 2 * z = S.s2 then (1 : ℝ) else 2) * (ph S.s0 x rx * ph S.s1 y ry * ph S.s2 z rz).re
      = ∑ z ∈ Finset.range (size2 S), (if z = 0 ∨ 2 * z = S.s2 then (1 : ℝ) else 2) *
        ((if (S.s0 : Int) ∣ rx ∧ (S.s1 : Int) ∣ ry then (S.s0 * S.s1 : ℝ) else 0) * (ph S.s2 z rz).re) := by
    simp only [← e, Finset.mul_sum]
    rw [Finset.sum_congr rfl fun x _ => Finset.sum_comm, Finset.sum_comm]
  rw [e2]
  have hsz : size2 S = S.s2 / 2 + 1 := rfl
  have e3 := sum_weight S.s2 hS.2.2 (fun z => (if (S.s0 : Int) ∣ rx ∧ (S.s1 : Int) ∣ ry then (S.s0 * S.s1 : ℝ) else 0) * (ph S.s2 z rz).re) (by
    intro z _ hz
    congr 1
    rw [← Complex.conj_re, ph_conj, show ((S.s2 - z : Nat) : Int) = S.s2 + -(z : Int) by omega, ph_add', ph_comm S.s2 (S.s2 : Int),
      ph_dvd S.s2 hS.2.2 _ _ (dvd_refl _), one_mul]
    congr 1
    unfold ph; congr 1; push_cast; ring)
  rw [hsz, e3, ← Finset.mul_sum, ← Complex.re_sum, ph_sum _ hS.2.2]
  by_cases h01 : (S.s0 : Int) ∣ rx ∧ (S.s1 : Int) ∣ ry
  · by_cases h2 : (S.s2 : Int) ∣ rz
    · rw [if_pos h01, if_pos h2, if_pos ⟨h01.1, h01.2, h2⟩]
      simp [nr]
    · have h : ¬((S.s0 : Int) ∣ rx ∧ (S.s1 : Int) ∣ ry ∧ (S.s2 : Int) ∣ rz) := fun h => h2 h.2.2
      rw [if_pos h01, if_neg h2, if_neg h]; simp
  · have h : ¬((S.s0 : Int) ∣ rx ∧ (S.s1 : Int) ∣ ry ∧ (S.s2 : Int) ∣ rz) := fun h => h01 ⟨h.1, h.2.1⟩
    rw [if_neg h01, if_neg h, zero_mul]

/-! ### The transforms are inverse to each other -/

theorem rStart_inj (S : Size) (hS : S.Pos) (j j' : Nat) (hj : j < nr S) (hj' : j' < nr S)
    (h0 : (S.s0 : Int) ∣ (rStart S j).x - (rStart S j').x) (h1 : (S.s1 : Int) ∣ (rStart S j).y - (rStart S j').y)
    (h2 : (S.s2 : Int) ∣ (rStart S j).z - (rStart S j').z) : j = j' := by
  have small : ∀ (s : Nat) (a b : Nat), a < s → b < s → (s : Int) ∣ (a : Int) - b → a = b := by
    intro s a b ha hb h
    have := Int.eq_zero_of_abs_lt_dvd h (by rw [abs_lt]; omega)
    omega
  have hx : ∀ i < nr S, i / (S.s2 * S.s1) < S.s0 := by
    intro i hi
    rw [Nat.div_lt_iff_lt_mul (Nat.mul_pos hS.2.2 hS.2.1)]
    unfold nr at hi
    calc i < S.s0 * S.s1 * S.s2 := hi
      _ = _ := by ring
  have ex := small S.s0 _ _ (hx j hj) (hx j' hj') h0
  have ey := small S.s1 _ _ (Nat.mod_lt _ hS.2.1) (Nat.mod_lt _ hS.2.1) h1
  have ez := small S.s2 _ _ (Nat.mod_lt _ hS.2.2) (Nat.mod_lt _ hS.2.2) h2
  have a := Nat.div_add_mod j S.s2
  have a' := Nat.div_add_mod j' S.s2
  have b := Nat.div_add_mod (j / S.s2) S.s1
  have b' := Nat.div_add_mod (j' / S.s2) S.s1
  rw [Nat.div_div_eq_div_mul] at b b'
  rw [ex, ey, b'] at b
  rw [← a, ← a', ez, b]

theorem nr_pos (S : Size) (hS : S.Pos) : 0 < nr S := Nat.mul_pos (Nat.mul_pos hS.1 hS.2.1) hS.2.2

theorem fftI_fftJ (S : Size) (hS : S.Pos) (f : Field) (j : Nat) (hj : j < nr S) : fftI S (fftJ S f) j = f j := by
  have hn : (nr S : ℝ) ≠ 0 := by exact_mod_cast (nr_pos S hS).ne'
  have e : fftI S (fftJ S f) j = ∑ j' ∈ Finset.range (nr S), f j' * (1 / (nr S : ℝ)) *
      ∑ i ∈ Finset.range (nG S), weight S i * (chi S i j * conj (chi S i j')).re := by
    simp only [fftI, fftJ, Idag, Int.toNat_natCast, Finset.mul_sum]
    rw [Finset.sum_comm]
    refine Finset.sum_congr rfl fun i _ => ?_
    rw [Finset.sum_mul, Complex.re_sum, Finset.mul_sum]
    refine Finset.sum_congr rfl fun j' _ => ?_
    rw [show (((1 / (nr S : ℝ) : ℝ) : ℂ) * ((f j' : ℂ) * conj (chi S i j'))) * chi S i j
      = ((1 / (nr S : ℝ) * f j' : ℝ) : ℂ) * (chi S i j * conj (chi S i j')) by push_cast; ring, Complex.re_ofReal_mul]
    ring
  have e2 : ∀ j' < nr S, ∑ i ∈ Finset.range (nG S), weight S i * (chi S i j * conj (chi S i j')).re = if j = j' then (nr S : ℝ) else 0 := by
    intro j' hj'
    have : ∀ i, chi S i j * conj (chi S i j') = ph S.s0 (i / (size2 S * S.s1) : Nat) ((rStart S j).x - (rStart S j').x)
        * ph S.s1 ((i / size2 S) % S.s1 : Nat) ((rStart S j).y - (rStart S j').y) * ph S.s2 (i % size2 S : Nat) ((rStart S j).z - (rStart S j').z) := by
      intro i
      rw [chi_eq S hS, chi_eq S hS, map_mul, map_mul, ph_conj, ph_conj, ph_conj, sub_eq_add_neg, sub_eq_add_neg, sub_eq_add_neg, ph_add, ph_add, ph_add]
      ring
    simp only [this]
    rw [kernel S hS]
    by_cases h : j = j'
    · subst h; rw [if_pos rfl, if_pos (by simp)]
    · rw [if_neg h, if_neg fun hh => h (rStart_inj S hS j j' hj hj' hh.1 hh.2.1 hh.2.2)]
  rw [e, Finset.sum_congr rfl fun j' hj' => by rw [e2 j' (Finset.mem_range.1 hj')]]
  simp only [mul_ite, mul_zero, Finset.sum_ite_eq, Finset.mem_range, if_pos hj]
  field_simp

/-- Sums of phases over the real-space grid. -/
theorem sum_real (S : Size) (hS : S.Pos) (a b c : Int) :
    ∑ j ∈ Finset.range (nr S), ph S.s0 a (rStart S j).x * ph S.s1 b (rStart S j).y * ph S.s2 c (rStart S j).z
      = if (S.s0 : Int) ∣ a ∧ (S.s1 : Int) ∣ b ∧ (S.s2 : Int) ∣ c then (nr S : ℂ) else 0 := by
  have e : ∑ j ∈ Finset.range (nr S), ph S.s0 a (rStart S j).x * ph S.s1 b (rStart S j).y * ph S.s2 c (rStart S j).z
      = (∑ x ∈ Finset.range S.s0, ph S.s0 x a) * (∑ y ∈ Finset.range S.s1, ph S.s1 y b) * ∑ z ∈ Finset.range S.s2, ph S.s2 z c := by
    unfold nr
    rw [sum_range_mul', sum_range_mul', Finset.sum_mul_sum, Finset.sum_mul]
    refine Finset.sum_congr rfl fun x hx => ?_
    rw [Finset.sum_mul]
    refine Finset.sum_congr rfl fun y hy => ?_
    rw [Finset.mul_sum]
    refine Finset.sum_congr rfl fun z hz => ?_
    have hy' := Finset.mem_range.1 hy
    have hz' := Finset.mem_range.1 hz
    have e1 : ((x * S.s1 + y) * S.s2 + z) / S.s2 = x * S.s1 + y := by
      rw [mul_comm, Nat.mul_add_div hS.2.2, Nat.div_eq_of_lt hz', add_zero]
    have e2 : (x * S.s1 + y) / S.s1 = x := by
      rw [mul_comm, Nat.mul_add_div hS.2.1, Nat.div_eq_of_lt hy', add_zero]
    have e3 : (x * S.s1 + y) % S.s1 = y := by
      rw [mul_comm, Nat.mul_add_mod, Nat.mod_eq_of_lt hy']
    have e4 : ((x * S.s1 + y) * S.s2 + z) % S.s2 = z := by
      rw [mul_comm, Nat.mul_add_mod, Nat.mod_eq_of_lt hz']
    simp only [rStart]
    rw [← Nat.div_div_eq_div_mul, e1, e2, e3, e4, ph_comm S.s0 a, ph_comm S.s1 b, ph_comm S.s2 c]
  rw [e, ph_sum _ hS.1, ph_sum _ hS.2.1, ph_sum _ hS.2.2]
  by_cases h0 : (S.s0 : Int) ∣ a
  · by_cases h1 : (S.s1 : Int) ∣ b
    · by_cases h2 : (S.s2 : Int) ∣ c
      · rw [if_pos h0, if_pos h1, if_pos h2, if_pos ⟨h0, h1, h2⟩]; simp [nr]
      · have h : ¬((S.s0 : Int) ∣ a ∧ (S.s1 : Int) ∣ b ∧ (S.s2 : Int) ∣ c) := fun h => h2 h.2.2
        rw [if_neg h2, if_neg h, mul_zero]
    · have h : ¬((S.s0 : Int) ∣ a ∧ (S.s1 : Int) ∣ b ∧ (S.s2 : Int) ∣ c) := fun h => h1 h.2.1
      rw [if_neg h1, if_neg h, mul_zero, zero_mul]
  · have h : ¬((S.s0 : Int) ∣ a ∧ (S.s1 : Int) ∣ b ∧ (S.s2 : Int) ∣ c) := fun h => h0 h.1
    rw [if_neg h0, if_neg h, zero_mul, zero_mul]

open Classical in
theorem fftJ_fftI (S : Size) (hS : S.Pos) (X : Arr) (hX : HermitianHalf S X) (i : Nat) (hi : i < nG S) : fftJ S (fftI S X) i = X i := by
  have hn : (nr S : ℂ) ≠ 0 := by exact_mod_cast (nr_pos S hS).ne'
  have e : fftJ S (fftI S X) i = ∑ i' ∈ Finset.range (nG S), (weight S i' / 2 : ℝ) * (1 / (nr S : ℂ)) *
      (X i' * ∑ j ∈ Finset.range (nr S), chi S i' j * conj (chi S i j) + conj (X i') * ∑ j ∈ Finset.range (nr S), conj (chi S i' j) * conj (chi S i j)) := by
    simp only [fftI, fftJ, Idag, Int.toNat_natCast, Finset.mul_sum]
    push_cast
    simp only [Finset.sum_mul, Finset.mul_sum]
    rw [Finset.sum_comm]
    refine Finset.sum_congr rfl fun i' _ => ?_
    rw [← Finset.sum_add_distrib, Finset.mul_sum]
    refine Finset.sum_congr rfl fun j _ => ?_
    have : (((X i' * chi S i' j).re : ℝ) : ℂ) = (X i' * chi S i' j + conj (X i') * conj (chi S i' j)) / 2 := by
      rw [Complex.re_eq_add_conj, map_mul]
    rw [this]; ring
  have k1 : ∀ i', ∑ j ∈ Finset.range (nr S), chi S i' j * conj (chi S i j)
      = if (S.s0 : Int) ∣ (hStart S i').x - (hStart S i).x ∧ (S.s1 : Int) ∣ (hStart S i').y - (hStart S i).y ∧ (S.s2 : Int) ∣ (hStart S i').z - (hStart S i).z
        then (nr S : ℂ) else 0 := by
    intro i'
    rw [← sum_real S hS]
    refine Finset.sum_congr rfl fun j _ => ?_
    rw [chi_ph, chi_ph, map_mul, map_mul, ph_conj, ph_conj, ph_conj, sub_eq_add_neg, sub_eq_add_neg, sub_eq_add_neg, ph_add', ph_add', ph_add']
    have : ∀ s a r, ph s (-a) r = ph s a (-r) := by intro s a r; unfold ph; congr 1; push_cast; ring
    rw [this, this, this]; ring
  have k2 : ∀ i', ∑ j ∈ Finset.range (nr S), conj (chi S i' j) * conj (chi S i j)
      = if Mirror S (hStart S i') (hStart S i) then (nr S : ℂ) else 0 := by
    intro i'
    have : ∑ j ∈ Finset.range (nr S), conj (chi S i' j) * conj (chi S i j) = conj (∑ j ∈ Finset.range (nr S),
        ph S.s0 ((hStart S i').x + (hStart S i).x) (rStart S j).x * ph S.s1 ((hStart S i').y + (hStart S i).y) (rStart S j).y
          * ph S.s2 ((hStart S i').z + (hStart S i).z) (rStart S j).z) := by
      rw [map_sum]
      refine Finset.sum_congr rfl fun j _ => ?_
      rw [← map_mul]; congr 1
      rw [chi_ph, chi_ph, ph_add', ph_add', ph_add']; ring
    rw [this, sum_real S hS]
    unfold Mirror
    split <;> simp
  have hv := hStart_valid S hS i hi
  -- only the same vector contributes to the first part
  have s1 : ∀ i' < nG S, ((S.s0 : Int) ∣ (hStart S i').x - (hStart S i).x ∧ (S.s1 : Int) ∣ (hStart S i').y - (hStart S i).y ∧ (S.s2 : Int) ∣ (hStart S i').z - (hStart S i).z)
      → i' = i := by
    intro i' hi' h
    have hv' := hStart_valid S hS i' hi'
    have cen : ∀ (s : Nat) (a b : Int), Centred s a → Centred s b → (s : Int) ∣ a - b → a = b := by
      intro s a b ha hb h
      have := Int.eq_zero_of_abs_lt_dvd h (by unfold Centred at ha hb; rw [abs_lt]; omega)
      omega
    have ev : hStart S i' = hStart S i := by
      have a := cen _ _ _ hv'.1.1 hv.1.1 h.1
      have b := cen _ _ _ hv'.1.2.1 hv.1.2.1 h.2.1
      have c := cen _ _ _ hv'.1.2.2 hv.1.2.2 h.2.2
      cases h1 : hStart S i'; cases h2 : hStart S i; simp_all
    have := hStart_index S hS i' hi'
    rw [ev, hStart_index S hS i hi] at this
    exact_mod_cast this.symm
  have e1 : ∑ i' ∈ Finset.range (nG S), (weight S i' / 2 : ℝ) * (1 / (nr S : ℂ)) * (X i' * ∑ j ∈ Finset.range (nr S), chi S i' j * conj (chi S i j))
      = (weight S i / 2 : ℝ) * X i := by
    rw [Finset.sum_eq_single i]
    · rw [k1, if_pos (by simp)]; field_simp
    · intro i' hi' hne
      rw [k1, if_neg fun h => hne (s1 i' (Finset.mem_range.1 hi') h)]; simp
    · intro h; exact absurd (Finset.mem_range.2 hi) h
  simp only [mul_add, Finset.sum_add_distrib] at e
  rw [e, e1]
  -- and only the opposite one to the second
  by_cases hz : (hStart S i).z = 0 ∨ 2 * (hStart S i).z = S.s2
  · have hvm : ValidH S (negV S (hStart S i)) := by
      refine ⟨negV_valid hv.1, ?_⟩
      simp only [negV, neg1]
      rcases hz with hz | hz
      · rw [hz]; split <;> simp
      · rw [if_pos hz]; exact hv.2
    obtain ⟨m, hmlt, hsm, hm⟩ := hStart_of_valid S hS _ hvm
    have e2 : ∑ i' ∈ Finset.range (nG S), (weight S i' / 2 : ℝ) * (1 / (nr S : ℂ)) * (conj (X i') * ∑ j ∈ Finset.range (nr S), conj (chi S i' j) * conj (chi S i j))
        = (weight S m / 2 : ℝ) * conj (X m) := by
      rw [Finset.sum_eq_single m]
      · rw [k2, if_pos (by rw [hsm]; exact ⟨by rw [add_comm]; exact neg1_dvd _, by rw [add_comm]; exact neg1_dvd _, by rw [add_comm]; exact neg1_dvd _⟩)]
        field_simp
      · intro i' hi' hne
        rw [k2, if_neg, mul_zero, mul_zero]
        intro h
        have hv' := hStart_valid S hS i' (Finset.mem_range.1 hi')
        have := mirror_unique hv.1 hv'.1 ⟨by rw [add_comm]; exact h.1, by rw [add_comm]; exact h.2.1, by rw [add_comm]; exact h.2.2⟩
        apply hne
        have a := hStart_index S hS i' (Finset.mem_range.1 hi')
        rw [this, hm] at a
        exact_mod_cast a.symm
      · intro h; exact absurd (Finset.mem_range.2 hmlt) h
    have w1 : weight S i = 1 := by unfold weight; rw [if_pos hz]
    have w2 : weight S m = 1 := by
      unfold weight; rw [if_pos]
      rw [hsm]; simp only [negV, neg1]
      split
      · next h => exact Or.inr h
      · next h => rcases hz with hz | hz
                  · left; omega
                  · exact absurd hz h
    have hh := hX (hStart S i) (negV S (hStart S i)) hv hvm (negV_mirror S _)
    rw [hm, hStart_index S hS i hi] at hh
    rw [e2, w1, w2, show (X (m : Int)) = conj (X i) from hh, Complex.conj_conj]
    push_cast; ring
  · have e2 : ∑ i' ∈ Finset.range (nG S), (weight S i' / 2 : ℝ) * (1 / (nr S : ℂ)) * (conj (X i') * ∑ j ∈ Finset.range (nr S), conj (chi S i' j) * conj (chi S i j)) = 0 := by
      refine Finset.sum_eq_zero fun i' hi' => ?_
      rw [k2, if_neg, mul_zero, mul_zero]
      intro h
      have hv' := hStart_valid S hS i' (Finset.mem_range.1 hi')
      have a := hv'.2
      have b := hv.2
      have c := hv'.1.2.2
      have d := hv.1.2.2
      unfold Centred at c d
      push Not at hz
      have := Int.eq_zero_of_abs_lt_dvd h.2.2 (by rw [abs_lt]; omega)
      omega
    have w1 : weight S i = 2 := by unfold weight; rw [if_neg hz]
    rw [e2, w1]
    push_cast; ring

/-- The components of a real field are conjugate at opposite vectors. -/
theorem Idag_hermitian (S : Size) (hS : S.Pos) (f : Field) : HermitianHalf S (Idag S f) := by
  intro v w hv hw hm
  obtain ⟨a, _, hsa, ha⟩ := hStart_of_valid S hS v hv
  obtain ⟨b, _, hsb, hb⟩ := hStart_of_valid S hS w hw
  rw [ha, hb]
  simp only [Idag, map_sum, Int.toNat_natCast, map_mul, Complex.conj_ofReal, Complex.conj_conj]
  refine Finset.sum_congr rfl fun j _ => ?_
  congr 1
  have one : ∀ (s : Nat) (a b r : Int), 0 < s → (s : Int) ∣ a + b → conj (ph s b r) = ph s a r := by
    intro s a b r hs h
    have h1 : ph s a r * ph s b r = 1 := by rw [← ph_add', ph_comm]; exact ph_dvd s hs r _ h
    have h2 : ph s b r * conj (ph s b r) = 1 := by rw [ph_conj, ← ph_add, add_neg_cancel]; exact ph_dvd s hs b 0 (dvd_zero _)
    calc conj (ph s b r) = (ph s a r * ph s b r) * conj (ph s b r) := by rw [h1, one_mul]
      _ = ph s a r * (ph s b r * conj (ph s b r)) := by ring
      _ = ph s a r := by rw [h2, mul_one]
  rw [chi_ph, chi_ph, hsa, hsb, map_mul, map_mul, one S.s0 v.x w.x _ hS.1 hm.1, one S.s1 v.y w.y _ hS.2.1 hm.2.1, one S.s2 v.z w.z _ hS.2.2 hm.2.2]

theorem fftJ_hermitian (S : Size) (hS : S.Pos) (f : Field) : HermitianHalf S (fftJ S f) := by
  intro v w hv hw hm
  unfold fftJ
  rw [Idag_hermitian S hS f v w hv hw hm, map_mul, Complex.conj_ofReal]

/-- Transforming a real field back and multiplying is the adjoint of multiplying and transforming. -/
theorem fftI_adjoint (S : Size) (u : Field) (X : Arr) :
    ∑ j ∈ Finset.range (nr S), u j * fftI S X j = ∑ i ∈ Finset.range (nG S), weight S i * (conj (Idag S u i) * X i).re := by
  simp only [fftI, Finset.mul_sum]
  rw [Finset.sum_comm]
  refine Finset.sum_congr rfl fun i _ => ?_
  simp only [Idag, map_sum, map_mul, Complex.conj_ofReal, Complex.conj_conj, Int.toNat_natCast, Finset.sum_mul, Complex.re_sum, Finset.mul_sum]
  refine Finset.sum_congr rfl fun j _ => ?_
  rw [show (u j : ℂ) * chi S i j * X i = (u j : ℝ) * (X i * chi S i j) by ring, Complex.re_ofReal_mul]
  ring

end
end Jdftx.ExCorr
