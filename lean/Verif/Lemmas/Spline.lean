import Verif.Model.Spline
import Mathlib.Tactic.Linarith
import Mathlib.Tactic.LinearCombination
import Mathlib.Tactic.FieldSimp
import Mathlib.Tactic.NormNum
import Mathlib.Tactic.Ring

/-!
# Solution of the pentadiagonal system
-/
namespace Jdftx.Spline
noncomputable section

/-- Both elimination steps for row `k`, without the range checks: `(l1,l2)` below, `d` diagonal, `(u1,u2)` above. -/
structure Inv (N k : Nat) (s : Bands × (Nat → ℝ)) : Prop where
  z1 : ∀ r, N ≤ r + 1 → s.1 1 r = 0
  z2 : ∀ r, N ≤ r + 2 → s.1 2 r = 0
  up : ∀ r < k, r < N → 0 < s.1 0 r
  row0 : k < N → |s.1 1 k| + |s.1 2 k| < s.1 0 k
  row1 : k + 1 < N → |s.1 (-1) k| + |s.1 1 (k+1)| + |s.1 2 (k+1)| < s.1 0 (k+1)
  row2 : ∀ r, k ≤ r → r + 2 < N → |s.1 (-1) (r+1)| + |s.1 (-2) r| + |s.1 1 (r+2)| + |s.1 2 (r+2)| < s.1 0 (r+2)

/-- `c` solves the system after `k` steps. -/
structure Sys (N k : Nat) (s : Bands × (Nat → ℝ)) (c : Nat → ℝ) : Prop where
  done : ∀ r ≤ k, r < N → s.1 0 r * c r + s.1 1 r * c (r+1) + s.1 2 r * c (r+2) = s.2 r
  row1 : k + 1 < N → s.1 (-1) k * c k + s.1 0 (k+1) * c (k+1) + s.1 1 (k+1) * c (k+2) + s.1 2 (k+1) * c (k+3) = s.2 (k+1)
  row2 : ∀ r, k ≤ r → r + 2 < N →
    s.1 (-2) r * c r + s.1 (-1) (r+1) * c (r+1) + s.1 0 (r+2) * c (r+2) + s.1 1 (r+2) * c (r+3) + s.1 2 (r+2) * c (r+4) = s.2 (r+2)

/-- Entries after the two elimination steps for row `k`. -/
structure Step (N k : Nat) (s t : Bands × (Nat → ℝ)) : Prop where
  d1 : k + 1 < N → t.1 0 (k+1) = s.1 0 (k+1) - s.1 (-1) k / s.1 0 k * s.1 1 k
  u1 : k + 1 < N → t.1 1 (k+1) = s.1 1 (k+1) - s.1 (-1) k / s.1 0 k * s.1 2 k
  x1 : k + 1 < N → t.2 (k+1) = s.2 (k+1) - s.1 (-1) k / s.1 0 k * s.2 k
  l1 : k + 2 < N → t.1 (-1) (k+1) = s.1 (-1) (k+1) - s.1 (-2) k / s.1 0 k * s.1 1 k
  d2 : k + 2 < N → t.1 0 (k+2) = s.1 0 (k+2) - s.1 (-2) k / s.1 0 k * s.1 2 k
  x2 : k + 2 < N → t.2 (k+2) = s.2 (k+2) - s.1 (-2) k / s.1 0 k * s.2 k
  d_old : ∀ r, r ≠ k + 1 → r ≠ k + 2 → t.1 0 r = s.1 0 r
  u1_old : ∀ r, r ≠ k + 1 → t.1 1 r = s.1 1 r
  u1_z : N ≤ k + 2 → t.1 1 (k+1) = s.1 1 (k+1)
  u2_old : ∀ r, t.1 2 r = s.1 2 r
  l1_old : ∀ r, r ≠ k + 1 → t.1 (-1) r = s.1 (-1) r
  l2_old : ∀ r, t.1 (-2) r = s.1 (-2) r
  x_old : ∀ r, r ≠ k + 1 → r ≠ k + 2 → t.2 r = s.2 r

theorem elim1 (N k : Nat) (s : Bands × (Nat → ℝ)) : elim N k 1 s =
    if k + 1 < N then
      (let rot := s.1 (-1) k / s.1 0 k
       let b := bump s.1 0 (k+1) (-(rot * s.1 1 k))
       if k + 2 < N then bump b 1 (k+1) (-(rot * b 2 k)) else b, Function.update s.2 (k+1) (s.2 (k+1) - s.1 (-1) k / s.1 0 k * s.2 k))
    else s := by
  unfold elim
  by_cases h : k + 1 < N
  · rw [if_pos h, if_pos h]
    simp [List.range', h]
  · rw [if_neg h, if_neg h]

theorem elim2 (N k : Nat) (s : Bands × (Nat → ℝ)) : elim N k 2 s =
    if k + 2 < N then
      (let rot := s.1 (-2) k / s.1 0 k
       let b := bump s.1 (-1) (k+1) (-(rot * s.1 1 k))
       bump b 0 (k+2) (-(rot * b 2 k)), Function.update s.2 (k+2) (s.2 (k+2) - s.1 (-2) k / s.1 0 k * s.2 k))
    else s := by
  unfold elim
  by_cases h : k + 2 < N
  · rw [if_pos h, if_pos h]
    simp [List.range', h]
  · rw [if_neg h, if_neg h]

theorem step_ok (N k : Nat) (s : Bands × (Nat → ℝ)) (hz : N ≤ k + 2 → s.1 2 k = 0) : Step N k s (elim N k 2 (elim N k 1 s)) := by
  by_cases h2 : k + 2 < N
  · have h1 : k + 1 < N := by omega
    rw [elim2, elim1]
    simp only [if_pos h2, if_pos h1]
    constructor <;> intros <;> simp_all [bump, Function.update] <;> ring
  · by_cases h1 : k + 1 < N
    · rw [elim2, elim1]
      simp only [if_neg h2, if_pos h1]
      have hz := hz (by omega)
      constructor <;> intros <;> simp_all [bump, Function.update] <;> first | omega | ring
    · rw [elim2, elim1]
      simp only [if_neg h2, if_neg h1]
      constructor <;> intros <;> first | omega | rfl

/-- Eliminating with a dominant row keeps a dominated row dominated. -/
theorem dom_step {d0 u1 u2 l d a r : ℝ} (h0 : |u1| + |u2| < d0) (h1 : |l| + |a| + r < d) : |a - l / d0 * u2| + r < d - l / d0 * u1 := by
  have hd : 0 < d0 := lt_of_le_of_lt (by positivity) h0
  have e1 : |l / d0 * u2| = |l| / d0 * |u2| := by rw [abs_mul, abs_div, abs_of_pos hd]
  have e2 : |l / d0 * u1| = |l| / d0 * |u1| := by rw [abs_mul, abs_div, abs_of_pos hd]
  have t1 : |a - l / d0 * u2| ≤ |a| + |l / d0 * u2| := abs_sub _ _
  have t2 : l / d0 * u1 ≤ |l / d0 * u1| := le_abs_self _
  have t3 : |l| / d0 * (|u1| + |u2|) ≤ |l| / d0 * d0 := mul_le_mul_of_nonneg_left h0.le (by positivity)
  rw [div_mul_cancel₀ _ hd.ne'] at t3
  rw [e1] at t1
  rw [e2] at t2
  nlinarith

theorem inv_step {N k : Nat} {s t : Bands × (Nat → ℝ)} (hi : Inv N k s) (st : Step N k s t) : Inv N (k+1) t where
  z1 r hr := by
    by_cases h : r = k + 1
    · subst h; rw [st.u1_z (by omega)]; exact hi.z1 _ hr
    · rw [st.u1_old r h]; exact hi.z1 _ hr
  z2 r hr := by rw [st.u2_old]; exact hi.z2 _ hr
  up r hr hN := by
    rw [st.d_old r (by omega) (by omega)]
    by_cases h : r = k
    · subst h
      exact lt_of_le_of_lt (by positivity) (hi.row0 hN)
    · exact hi.up r (by omega) hN
  row0 h := by
    rw [st.d1 h, st.u1 h, st.u2_old]
    exact dom_step (hi.row0 (by omega)) (hi.row1 h)
  row1 h := by
    have h0 := hi.row0 (by omega)
    have h2 := hi.row2 k (le_refl _) (by omega)
    rw [st.l1 (by omega), st.d2 (by omega), st.u1_old _ (by omega), st.u2_old]
    have := dom_step (d0 := s.1 0 k) (u1 := s.1 2 k) (u2 := s.1 1 k) (l := s.1 (-2) k) (d := s.1 0 (k+2)) (a := s.1 (-1) (k+1))
      (r := |s.1 1 (k+2)| + |s.1 2 (k+2)|) (by linarith) (by linarith)
    linarith
  row2 r hr h := by
    rw [st.l1_old _ (by omega), st.l2_old, st.u1_old _ (by omega), st.u2_old, st.d_old _ (by omega) (by omega)]
    exact hi.row2 r (by omega) h

theorem sys_step {N k : Nat} {s t : Bands × (Nat → ℝ)} {c : Nat → ℝ} (hk : k < N → s.1 0 k ≠ 0) (st : Step N k s t) (h : Sys N (k+1) t c) :
    Sys N k s c where
  done r hr hN := by
    have := h.done r (by omega) hN
    rwa [st.d_old r (by omega) (by omega), st.u1_old r (by omega), st.u2_old, st.x_old r (by omega) (by omega)] at this
  row1 hN := by
    have hk := hk (by omega)
    have e0 := h.done k (by omega) (by omega)
    have e1 := h.done (k+1) (le_refl _) hN
    rw [st.d_old k (by omega) (by omega), st.u1_old k (by omega), st.u2_old, st.x_old k (by omega) (by omega)] at e0
    rw [st.d1 hN, st.u1 hN, st.u2_old, st.x1 hN] at e1
    field_simp at e1
    have : s.1 0 k * (s.1 (-1) k * c k + s.1 0 (k+1) * c (k+1) + s.1 1 (k+1) * c (k+2) + s.1 2 (k+1) * c (k+3)) = s.1 0 k * s.2 (k+1) := by
      linear_combination e1 + s.1 (-1) k * e0
    exact mul_left_cancel₀ hk this
  row2 r hr hN := by
    have hk := hk (by omega)
    by_cases hrk : r = k
    · subst hrk
      have e0 := h.done r (by omega) (by omega)
      have e1 := h.row1 (by omega)
      rw [st.d_old r (by omega) (by omega), st.u1_old r (by omega), st.u2_old, st.x_old r (by omega) (by omega)] at e0
      rw [st.l1 hN, st.d2 hN, st.u1_old _ (by omega), st.u2_old, st.x2 hN] at e1
      field_simp at e1
      have : s.1 0 r * (s.1 (-2) r * c r + s.1 (-1) (r+1) * c (r+1) + s.1 0 (r+2) * c (r+2) + s.1 1 (r+2) * c (r+3) + s.1 2 (r+2) * c (r+4))
          = s.1 0 r * s.2 (r+2) := by
        linear_combination e1 + s.1 (-2) r * e0
      exact mul_left_cancel₀ hk this
    · have := h.row2 r (by omega) hN
      rwa [st.l1_old _ (by omega), st.l2_old, st.u1_old _ (by omega), st.u2_old, st.d_old _ (by omega) (by omega),
        st.x_old _ (by omega) (by omega)] at this

theorem forward_ok (N : Nat) (s : Bands × (Nat → ℝ)) (hi : Inv N 0 s) : ∀ k, Inv N k (forward N s k) ∧ ∀ c, Sys N k (forward N s k) c → Sys N 0 s c
  | 0 => ⟨hi, fun _ h => h⟩
  | k+1 => by
    obtain ⟨h1, h2⟩ := forward_ok N s hi k
    have st := step_ok N k (forward N s k) (fun h => h1.z2 k h)
    refine ⟨inv_step h1 st, fun c hc => h2 c (sys_step ?_ st hc)⟩
    intro hk
    exact (lt_of_le_of_lt (by positivity) (h1.row0 hk)).ne'

/-- The reverse sweep solves the triangular system. -/
theorem reverse_ok (N : Nat) (b : Bands) (hd : ∀ r < N, 0 < b 0 r) (z1 : ∀ r, N ≤ r + 1 → b 1 r = 0) (z2 : ∀ r, N ≤ r + 2 → b 2 r = 0) :
    ∀ (k : Nat) (x : Nat → ℝ), k ≤ N → (∀ r, k ≤ r → reverse N b k x r = x r) ∧
      ∀ r < k, b 0 r * reverse N b k x r + b 1 r * reverse N b k x (r+1) + b 2 r * reverse N b k x (r+2) = x r
  | 0, x, _ => ⟨fun _ _ => rfl, fun _ h => absurd h (by omega)⟩
  | i+1, x, hk => by
    unfold reverse
    simp only
    generalize hx1 : (if i + 1 < N then Function.update x i (x i - b 1 i * x (i + 1)) else x) = x1
    generalize hx2 : (if i + 2 < N then Function.update x1 i (x1 i - b 2 i * x1 (i + 2)) else x1) = x2
    have a1 : ∀ r, r ≠ i → x1 r = x r := by
      intro r hr; rw [← hx1]; split
      · rw [Function.update_of_ne hr]
      · rfl
    have a2 : ∀ r, r ≠ i → x2 r = x r := by
      intro r hr; rw [← hx2]; split
      · rw [Function.update_of_ne hr, a1 r hr]
      · exact a1 r hr
    have v1 : x1 i = x i - b 1 i * x (i + 1) := by
      rw [← hx1]; split
      · rw [Function.update_self]
      · rw [z1 i (by omega)]; ring
    have v2 : x2 i = x i - b 1 i * x (i + 1) - b 2 i * x (i + 2) := by
      rw [← hx2]; split
      · rw [Function.update_self, v1, a1 _ (by omega)]
      · rw [z2 i (by omega), v1]; ring
    obtain ⟨g1, g2⟩ := reverse_ok N b hd z1 z2 i (Function.update x2 i (x2 i * (1 / b 0 i))) (by omega)
    constructor
    · intro r hr
      rw [g1 r (by omega), Function.update_of_ne (by omega), a2 r (by omega)]
    · intro r hr
      by_cases h : r = i
      · subst h
        have hdr := (hd r (by omega)).ne'
        rw [g1 r (le_refl _), g1 (r+1) (by omega), g1 (r+2) (by omega), Function.update_self, Function.update_of_ne (by omega),
          Function.update_of_ne (by omega), a2 (r+1) (by omega), a2 (r+2) (by omega), v2]
        field_simp
        ring
      · rw [g2 r (by omega), Function.update_of_ne h, a2 r h]

theorem solve_ok (N : Nat) (s : Bands × (Nat → ℝ)) (hi : Inv N 0 s) :
    Sys N 0 s (reverse N (forward N s N).1 N (forward N s N).2) := by
  obtain ⟨h1, h2⟩ := forward_ok N s hi N
  apply h2
  have := (reverse_ok N (forward N s N).1 (fun r hr => h1.up r hr hr) h1.z1 h1.z2 N (forward N s N).2 (le_refl _)).2
  exact ⟨fun r _ hr => this r hr, fun h => absurd h (by omega), fun r hr h => absurd h (by omega)⟩

theorem bc_d (N : Nat) (odd : Bool) (i : Nat) (h : i < N) : bandsBC N odd 0 i =
    1 + (if i = 1 then sgn odd * (1/66) else 0) + (if i = N - 2 then -(1/22) else 0) + (if i = N - 1 then 14/11 else 0) := by
  simp only [bandsBC, bands0, bump, extrap, off1, off2]
  norm_num
  exact h

theorem bc_u1 (N : Nat) (odd : Bool) (i : Nat) (h : i + 1 < N) : bandsBC N odd 1 i =
    13/33 + (if i = 0 then sgn odd * (13/33) else 0) + (if i = N - 2 then 1/22 else 0) := by
  simp only [bandsBC, bands0, bump, extrap, off1, off2]
  norm_num
  exact h

theorem bc_u2 (N : Nat) (odd : Bool) (i : Nat) (h : i + 2 < N) : bandsBC N odd 2 i =
    1/66 + (if i = 0 then sgn odd * (1/66) else 0) := by
  simp only [bandsBC, bands0, bump, extrap, off1, off2]
  norm_num
  exact h

theorem bc_l1 (N : Nat) (odd : Bool) (i : Nat) (h : i + 1 < N) : bandsBC N odd (-1) i =
    13/33 + (if i = N - 3 then 1/66 else 0) + (if i = N - 2 then -(43/33) else 0) := by
  simp only [bandsBC, bands0, bump, extrap, off1, off2]
  norm_num
  exact h

theorem bc_l2 (N : Nat) (odd : Bool) (i : Nat) (h : i + 2 < N) : bandsBC N odd (-2) i =
    1/66 + (if i = N - 3 then 29/66 else 0) := by
  simp only [bandsBC, bands0, bump, extrap, off1, off2]
  norm_num
  exact h

theorem bc_z1 (N : Nat) (hN : 3 ≤ N) (odd : Bool) (r : Nat) (hr : N ≤ r + 1) : bandsBC N odd 1 r = 0 := by
  simp only [bandsBC, bands0, bump, extrap, off1, off2]
  norm_num
  rw [if_neg (by omega), if_neg (by omega), if_neg (by omega)]; norm_num

theorem bc_z2 (N : Nat) (hN : 3 ≤ N) (odd : Bool) (r : Nat) (hr : N ≤ r + 2) : bandsBC N odd 2 r = 0 := by
  simp only [bandsBC, bands0, bump, extrap, off1, off2]
  norm_num
  rw [if_neg (by omega), if_neg (by omega)]; norm_num

theorem bandsBC_inv (N : Nat) (hN : 3 ≤ N) (odd : Bool) (x : Nat → ℝ) : Inv N 0 (bandsBC N odd, x) where
  z1 r hr := bc_z1 N hN odd r hr
  z2 r hr := bc_z2 N hN odd r hr
  up r hr := absurd hr (by omega)
  row0 h := by
    simp only
    rw [bc_d N odd 0 h, bc_u1 N odd 0 (by omega), bc_u2 N odd 0 (by omega)]
    rw [if_neg (by omega : ¬ 0 = 1), if_neg (by omega : ¬ 0 = N - 2), if_neg (by omega : ¬ 0 = N - 2), if_neg (by omega : ¬ 0 = N - 1)]
    cases odd <;> norm_num [sgn, abs_of_pos]
  row1 h := by
    simp only
    by_cases h3 : N = 3
    · subst h3
      rw [bc_d _ odd _ h, bc_u1 _ odd _ (by omega), bc_z2 _ hN _ _ (by omega), bc_l1 _ odd _ (by omega)]
      cases odd <;> norm_num [sgn, abs_of_pos]
    · rw [bc_d N odd _ h, bc_u1 N odd _ (by omega), bc_u2 N odd _ (by omega), bc_l1 N odd _ (by omega)]
      rw [if_neg (by omega : ¬ 0 + 1 = N - 2), if_neg (by omega : ¬ 0 + 1 = N - 2), if_neg (by omega : ¬ 0 + 1 = N - 1),
        if_neg (by omega : ¬ 0 = N - 3), if_neg (by omega : ¬ 0 = N - 2)]
      cases odd <;> norm_num [sgn, abs_of_pos]
  row2 r _ h := by
    simp only
    rw [bc_d N odd _ h, bc_l1 N odd _ (by omega), bc_l2 N odd _ (by omega)]
    by_cases ha : r + 3 = N
    · rw [bc_z1 N hN _ _ (by omega), bc_z2 N hN _ _ (by omega), if_neg (by omega : ¬ r + 2 = 1), if_neg (by omega : ¬ r + 2 = N - 2),
        if_pos (by omega : r + 2 = N - 1), if_neg (by omega : ¬ r + 1 = N - 3), if_pos (by omega : r + 1 = N - 2), if_pos (by omega : r = N - 3)]
      norm_num [abs_of_pos, abs_of_neg]
    · by_cases hb : r + 4 = N
      · rw [bc_u1 N odd _ (by omega), bc_z2 N hN _ _ (by omega), if_neg (by omega : ¬ r + 2 = 1), if_pos (by omega : r + 2 = N - 2),
          if_neg (by omega : ¬ r + 2 = N - 1), if_pos (by omega : r + 1 = N - 3), if_neg (by omega : ¬ r + 1 = N - 2),
          if_neg (by omega : ¬ r = N - 3), if_neg (by omega : ¬ r + 2 = 0), if_pos (by omega : r + 2 = N - 2)]
        norm_num [abs_of_pos, abs_of_neg]
      · rw [bc_u1 N odd _ (by omega), bc_u2 N odd _ (by omega), if_neg (by omega : ¬ r + 2 = 1), if_neg (by omega : ¬ r + 2 = N - 2),
          if_neg (by omega : ¬ r + 2 = N - 1), if_neg (by omega : ¬ r + 1 = N - 3), if_neg (by omega : ¬ r + 1 = N - 2),
          if_neg (by omega : ¬ r = N - 3), if_neg (by omega : ¬ r + 2 = 0), if_neg (by omega : ¬ r + 2 = N - 2), if_neg (by omega : ¬ r + 2 = 0)]
        norm_num [abs_of_pos, abs_of_neg]

/-- The extended coefficients reproduce the samples at all knots. -/
theorem knots (N : Nat) (hN : 3 ≤ N) (odd : Bool) (x c e : Nat → ℝ) (h : Sys N 0 (bandsBC N odd, x) c)
    (e0 : e 0 = sgn odd * c 2) (e1 : e 1 = sgn odd * c 1) (ei : ∀ i < N, e (i+2) = c i)
    (en : e (N+2) = c (N-3) - 3 * c (N-2) + 3 * c (N-1)) (en' : e (N+3) = 3 * c (N-3) - 8 * c (N-2) + 6 * c (N-1)) :
    ∀ i < N, e i + 26 * e (i+1) + 66 * e (i+2) + 26 * e (i+3) + e (i+4) = 66 * x i := by
  intro i hi
  rcases i with _ | _ | r
  · have := h.done 0 (le_refl _) (by omega)
    simp only at this
    rw [bc_d N odd 0 hi, bc_u1 N odd 0 (by omega), bc_u2 N odd 0 (by omega), if_neg (by omega : ¬ 0 = 1), if_neg (by omega : ¬ 0 = N - 2),
      if_neg (by omega : ¬ 0 = N - 2), if_neg (by omega : ¬ 0 = N - 1)] at this
    rw [e0, e1, ei 0 (by omega), ei 1 (by omega), ei 2 (by omega), ← this]
    cases odd <;> norm_num [sgn] <;> ring
  · have := h.row1 (by omega)
    simp only at this
    rw [bc_d N odd _ hi, bc_u1 N odd _ (by omega), bc_l1 N odd _ (by omega)] at this
    by_cases h3 : N = 3
    · subst h3
      rw [bc_z2 _ hN _ _ (by omega)] at this
      norm_num at en this
      norm_num
      rw [e1, ei 0 (by omega), ei 1 (by omega), ei 2 (by omega), en]
      linear_combination 66 * this
    · rw [bc_u2 N odd _ (by omega), if_neg (by omega : ¬ 0 + 1 = N - 2), if_neg (by omega : ¬ 0 + 1 = N - 2), if_neg (by omega : ¬ 0 + 1 = N - 1),
        if_neg (by omega : ¬ 0 = N - 3), if_neg (by omega : ¬ 0 = N - 2)] at this
      norm_num at this
      norm_num
      rw [e1, ei 0 (by omega), ei 1 (by omega), ei 2 (by omega), ei 3 (by omega)]
      linear_combination 66 * this
  · have := h.row2 r (by omega) (by omega)
    simp only at this
    rw [bc_d N odd _ (by omega), bc_l1 N odd _ (by omega), bc_l2 N odd _ (by omega)] at this
    by_cases ha : r + 3 = N
    · rw [bc_z1 N hN _ _ (by omega), bc_z2 N hN _ _ (by omega), if_neg (by omega : ¬ r + 2 = 1), if_neg (by omega : ¬ r + 2 = N - 2),
        if_pos (by omega : r + 2 = N - 1), if_neg (by omega : ¬ r + 1 = N - 3), if_pos (by omega : r + 1 = N - 2), if_pos (by omega : r = N - 3)] at this
      rw [show N - 3 = r by omega, show N - 2 = r + 1 by omega, show N - 1 = r + 2 by omega] at en en'
      rw [show N + 2 = r + 2 + 3 by omega] at en
      rw [show N + 3 = r + 2 + 4 by omega] at en'
      rw [show r + 1 + 1 = r + 2 by omega, en, en', ei r (by omega), ei (r+1) (by omega), ei (r+2) (by omega)]
      linear_combination 66 * this
    · by_cases hb : r + 4 = N
      · rw [bc_u1 N odd _ (by omega), bc_z2 N hN _ _ (by omega), if_neg (by omega : ¬ r + 2 = 1), if_pos (by omega : r + 2 = N - 2),
          if_neg (by omega : ¬ r + 2 = N - 1), if_pos (by omega : r + 1 = N - 3), if_neg (by omega : ¬ r + 1 = N - 2),
          if_neg (by omega : ¬ r = N - 3), if_neg (by omega : ¬ r + 2 = 0), if_pos (by omega : r + 2 = N - 2)] at this
        rw [show N - 3 = r + 1 by omega, show N - 2 = r + 2 by omega, show N - 1 = r + 3 by omega, show N + 2 = r + 2 + 4 by omega] at en
        rw [show r + 1 + 1 = r + 2 by omega, en, ei r (by omega), ei (r+1) (by omega), ei (r+2) (by omega), ei (r+3) (by omega)]
        linear_combination 66 * this
      · rw [bc_u1 N odd _ (by omega), bc_u2 N odd _ (by omega), if_neg (by omega : ¬ r + 2 = 1), if_neg (by omega : ¬ r + 2 = N - 2),
          if_neg (by omega : ¬ r + 2 = N - 1), if_neg (by omega : ¬ r + 1 = N - 3), if_neg (by omega : ¬ r + 1 = N - 2),
          if_neg (by omega : ¬ r = N - 3), if_neg (by omega : ¬ r + 2 = 0), if_neg (by omega : ¬ r + 2 = N - 2), if_neg (by omega : ¬ r + 2 = 0)] at this
        rw [show r + 1 + 1 = r + 2 by omega, ei r (by omega), ei (r+1) (by omega), ei (r+2) (by omega), ei (r+3) (by omega), ei (r+4) (by omega)]
        linear_combination 66 * this

end
end Jdftx.Spline
