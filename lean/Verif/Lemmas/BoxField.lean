import Verif.Spec.BoxField
import Verif.Lemmas.Box
import Mathlib.Tactic.LinearCombination
import Mathlib.Algebra.BigOperators.Ring.Finset
import Mathlib.Algebra.BigOperators.Intervals

namespace Jdftx.Box
open scoped ComplexConjugate

/-! ### Writes -/

theorem applyWrites_miss (ws : List (Int × ℂ)) (i : Int) (h : ∀ w ∈ ws, w.1 ≠ i) : ∀ a, applyWrites ws a i = a i := by
  induction ws with
  | nil => intro a; rfl
  | cons w ws ih =>
    intro a
    simp only [applyWrites, List.foldl_cons] at ih ⊢
    rw [ih (fun w' hw' => h w' (List.mem_cons_of_mem _ hw')), Function.update_of_ne (h w List.mem_cons_self).symm]

theorem applyWrites_hit (ws : List (Int × ℂ)) (i : Int) (x : ℂ) (hx : ∀ w ∈ ws, w.1 = i → w.2 = x) :
    ∀ a, ((∃ w ∈ ws, w.1 = i) ∨ a i = x) → applyWrites ws a i = x := by
  induction ws with
  | nil => intro a h; rcases h with ⟨w, hw, _⟩ | h <;> [simp at hw; exact h]
  | cons w ws ih =>
    intro a h
    simp only [applyWrites, List.foldl_cons] at ih ⊢
    apply ih (fun w' hw' => hx w' (List.mem_cons_of_mem _ hw'))
    by_cases hw : w.1 = i
    · right; rw [hw, Function.update_self]; exact hx w List.mem_cons_self hw
    · rcases h with ⟨w', hw', e⟩ | h
      · rcases List.mem_cons.1 hw' with rfl | hw'
        · exact absurd e hw
        · left; exact ⟨w', hw', e⟩
      · right; rw [Function.update_of_ne (Ne.symm hw)]; exact h

/-! ### Points of the half and full grid -/

theorem hLoop_all (S : Size) (hS : S.Pos) : hLoop S 0 (nG S) = (List.range (nG S)).map fun j => (j, hStart S j) := by
  unfold hLoop
  rw [hLoopFrom_eq S hS _ le_rfl _ 0 (by omega), List.range_eq_range']
  rfl

theorem gLoop_all (S : Size) (hS : S.Pos) :
    gLoop S (nr S) 0 (nr S) = .ok ((List.range (nr S)).map fun j => (j, gStart S j)) := by
  unfold gLoop
  have hpos : 0 < nr S := Nat.mul_pos (Nat.mul_pos hS.1 hS.2.1) hS.2.2
  rw [gLoopFrom_eq S hS _ le_rfl _ 0 hpos (by omega), List.range_eq_range']
  rfl

theorem hStart_valid (S : Size) (hS : S.Pos) (i : Nat) (hi : i < nG S) : ValidH S (hStart S i) := by
  rw [hStart_eq]; exact foldH_valid S hS _ (rStart_valid _ (halfSize_pos S hS) i hi)

theorem hStart_index (S : Size) (hS : S.Pos) (i : Nat) (hi : i < nG S) : halfGindex S (hStart S i) = i := by
  rw [hStart_eq, halfGindex_eq, wrap_foldH S _ (rStart_valid _ (halfSize_pos S hS) i hi), rStart_index]

theorem gStart_valid (S : Size) (hS : S.Pos) (i : Nat) (hi : i < nr S) : ValidG S (gStart S i) := by
  rw [gStart_eq]; exact foldV_valid S _ (rStart_valid S hS i hi)

theorem gStart_index (S : Size) (hS : S.Pos) (i : Nat) (hi : i < nr S) : fullGindex S (gStart S i) = i := by
  rw [gStart_eq, fullGindex, wrap_foldV S _ (rStart_valid S hS i hi), rStart_index]

theorem halfGindex_range (S : Size) (v : IV) (hv : ValidH S v) : 0 ≤ halfGindex S v ∧ halfGindex S v < nG S := by
  rw [halfGindex_eq, ← nr_halfSize]; exact fullRindex_range _ _ (wrapH_valid S v hv)

theorem halfGindex_inj (S : Size) (v w : IV) (hv : ValidH S v) (hw : ValidH S w) (h : halfGindex S v = halfGindex S w) :
    v = w := by
  rw [halfGindex_eq, halfGindex_eq] at h
  rw [← foldH_wrap S v hv, ← foldH_wrap S w hw, fullRindex_inj _ _ _ (wrapH_valid S v hv) (wrapH_valid S w hw) h]

theorem fullGindex_range (S : Size) (v : IV) (hv : ValidG S v) : 0 ≤ fullGindex S v ∧ fullGindex S v < nr S :=
  fullRindex_range _ _ (wrap_valid S v hv)

theorem fullGindex_inj (S : Size) (v w : IV) (hv : ValidG S v) (hw : ValidG S w) (h : fullGindex S v = fullGindex S w) :
    v = w := by
  rw [← foldV_wrap S v hv, ← foldV_wrap S w hw, fullRindex_inj _ _ _ (wrap_valid S v hv) (wrap_valid S w hw) h]

/-- Every valid half point is visited at its index. -/
theorem hStart_of_valid (S : Size) (hS : S.Pos) (v : IV) (hv : ValidH S v) :
    ∃ j < nG S, hStart S j = v ∧ halfGindex S v = j := by
  obtain ⟨h0, h1⟩ := halfGindex_range S v hv
  have hj : ((halfGindex S v).toNat : Int) = halfGindex S v := Int.toNat_of_nonneg h0
  have hlt : (halfGindex S v).toNat < nG S := by omega
  refine ⟨_, hlt, ?_, hj.symm⟩
  exact halfGindex_inj S _ _ (hStart_valid S hS _ hlt) hv (by rw [hStart_index S hS _ hlt, hj])

theorem gStart_of_valid (S : Size) (hS : S.Pos) (v : IV) (hv : ValidG S v) :
    ∃ j < nr S, gStart S j = v ∧ fullGindex S v = j := by
  obtain ⟨h0, h1⟩ := fullGindex_range S v hv
  have hj : ((fullGindex S v).toNat : Int) = fullGindex S v := Int.toNat_of_nonneg h0
  have hlt : (fullGindex S v).toNat < nr S := by omega
  refine ⟨_, hlt, ?_, hj.symm⟩
  exact fullGindex_inj S _ _ (gStart_valid S hS _ hlt) hv (by rw [gStart_index S hS _ hlt, hj])

/-! ### Mirror images -/

def neg1 (s : Nat) (g : Int) : Int := if 2 * g = s then g else -g

def negV (S : Size) (v : IV) : IV := ⟨neg1 S.s0 v.x, neg1 S.s1 v.y, neg1 S.s2 v.z⟩

theorem neg1_centred {s : Nat} {g : Int} (h : Centred s g) : Centred s (neg1 s g) := by
  unfold Centred neg1 at *; split <;> omega

theorem neg1_dvd {s : Nat} (g : Int) : (s : Int) ∣ g + neg1 s g := by
  unfold neg1; split
  · exact ⟨1, by omega⟩
  · exact ⟨0, by omega⟩

theorem neg1_unique {s : Nat} {g w : Int} (hg : Centred s g) (hw : Centred s w) (h : (s : Int) ∣ g + w) : w = neg1 s g := by
  obtain ⟨k, hk⟩ := h
  unfold Centred at hg hw
  have hs : (0 : Int) < s := by omega
  have h1 : k < 2 := by
    by_contra hc
    have : (s : Int) * 2 ≤ s * k := mul_le_mul_of_nonneg_left (by omega) (by omega)
    omega
  have h2 : -1 < k := by
    by_contra hc
    have : (s : Int) * k ≤ s * (-1) := mul_le_mul_of_nonneg_left (by omega) (by omega)
    omega
  have : k = 0 ∨ k = 1 := by omega
  unfold neg1
  rcases this with rfl | rfl
  · split <;> omega
  · split <;> omega

theorem neg1_neg1 {s : Nat} {g : Int} (_h : Centred s g) : neg1 s (neg1 s g) = g := by
  unfold Centred neg1 at *; split <;> (try split) <;> omega

theorem mirror_wrap {s : Nat} {g : Int} (h : Centred s g) : mirror1 s (wrap1 s g) = wrap1 s (neg1 s g) := by
  unfold Centred at h; unfold mirror1 wrap1 neg1
  split <;> split <;> split <;> (try split) <;> omega

theorem negV_valid {S : Size} {v : IV} (hv : ValidG S v) : ValidG S (negV S v) :=
  ⟨neg1_centred hv.1, neg1_centred hv.2.1, neg1_centred hv.2.2⟩

theorem negV_mirror (S : Size) (v : IV) : Mirror S v (negV S v) := ⟨neg1_dvd _, neg1_dvd _, neg1_dvd _⟩

theorem mirror_unique {S : Size} {v w : IV} (hv : ValidG S v) (hw : ValidG S w) (h : Mirror S v w) : w = negV S v := by
  cases w; simp only [negV, IV.mk.injEq]
  exact ⟨neg1_unique hv.1 hw.1 h.1, neg1_unique hv.2.1 hw.2.1 h.2.1, neg1_unique hv.2.2 hw.2.2 h.2.2⟩

theorem negV_negV {S : Size} {v : IV} (hv : ValidG S v) : negV S (negV S v) = v := by
  cases v; simp only [negV, IV.mk.injEq]; exact ⟨neg1_neg1 hv.1, neg1_neg1 hv.2.1, neg1_neg1 hv.2.2⟩

theorem iFullRef_eq {S : Size} {v : IV} (hv : ValidG S v) : iFullRef S v = fullGindex S (negV S v) := by
  simp only [iFullRef, fullGindex, wrapGcoords, negV, mirror_wrap hv.1, mirror_wrap hv.2.1, mirror_wrap hv.2.2]

theorem negV_half {S : Size} {v : IV} (hv : ValidG S v) (h : v.z < 0) : ValidH S (negV S v) := by
  refine ⟨negV_valid hv, ?_⟩
  have := hv.2.2; unfold Centred at this
  simp only [negV, neg1]; split <;> omega

/-! ### Real, Imag, Complex -/

theorem perm_mem_iff {ws ws' : List (Int × ℂ)} (h : ws'.Perm ws) (w : Int × ℂ) : w ∈ ws' ↔ w ∈ ws := h.mem_iff

theorem mapWrites_get (S : Size) (hS : S.Pos) (f : Nat → IV → ℂ) (ws : List (Int × ℂ))
    (h : ws.Perm ((hLoop S 0 (nG S)).map fun p => ((p.1 : Int), f p.1 p.2))) (a : Arr) (j : Nat) (hj : j < nG S) :
    applyWrites ws a j = f j (hStart S j) := by
  have mem : ∀ w, w ∈ ws ↔ ∃ k < nG S, w = ((k : Int), f k (hStart S k)) := by
    intro w
    rw [h.mem_iff, hLoop_all S hS]
    simp only [List.map_map, List.mem_map, List.mem_range, Function.comp_apply]
    constructor
    · rintro ⟨k, hk, rfl⟩; exact ⟨k, hk, rfl⟩
    · rintro ⟨k, hk, rfl⟩; exact ⟨k, hk, rfl⟩
  apply applyWrites_hit
  · intro w hw e
    obtain ⟨k, hk, rfl⟩ := (mem w).1 hw
    have : k = j := by simpa using e
    subst this; rfl
  · exact Or.inl ⟨_, (mem _).2 ⟨j, hj, rfl⟩, rfl⟩

theorem halfMap_get (S : Size) (hS : S.Pos) (f : Nat → IV → ℂ) (j : Nat) (hj : j < nG S) :
    halfMap S f j = f j (hStart S j) := mapWrites_get S hS f _ (List.Perm.refl _) _ j hj

/-- Value of the full representation at a point. -/
noncomputable def fullVal (S : Size) (h : Arr) (s : ℝ) (u : IV) : ℂ :=
  if 0 ≤ u.z then (s : ℂ) * h (halfGindex S u) else conj ((s : ℂ) * h (halfGindex S (negV S u)))

theorem mem_complexWrites (S : Size) (hS : S.Pos) (h : Arr) (s : ℝ) (w : Int × ℂ) :
    w ∈ complexWrites S h s ↔ ∃ v, ValidH S v ∧ (w = (fullGindex S v, (s : ℂ) * h (halfGindex S v)) ∨
      w = (fullGindex S (negV S v), conj ((s : ℂ) * h (halfGindex S v)))) := by
  unfold complexWrites
  rw [hLoop_all S hS]
  simp only [List.mem_flatMap, List.mem_map, List.mem_range, List.mem_cons, List.not_mem_nil, or_false]
  constructor
  · rintro ⟨p, ⟨k, hk, rfl⟩, hw⟩
    have hv := hStart_valid S hS k hk
    refine ⟨hStart S k, hv, ?_⟩
    simp only [iFullRef_eq hv.1] at hw
    rw [hStart_index S hS k hk]
    exact hw
  · rintro ⟨v, hv, hw⟩
    obtain ⟨k, hk, rfl, e⟩ := hStart_of_valid S hS v hv
    refine ⟨_, ⟨k, hk, rfl⟩, ?_⟩
    simp only [iFullRef_eq hv.1]
    rw [e] at hw
    exact hw

theorem complex_get (S : Size) (hS : S.Pos) (h : Arr) (s : ℝ) (hh : HermitianHalf S h) (ws : List (Int × ℂ))
    (hp : ws.Perm (complexWrites S h s)) (a : Arr) (u : IV) (hu : ValidG S u) :
    applyWrites ws a (fullGindex S u) = fullVal S h s u := by
  apply applyWrites_hit
  · intro w hw e
    obtain ⟨v, hv, hw | hw⟩ := (mem_complexWrites S hS h s w).1 (hp.mem_iff.1 hw)
    · subst hw
      have : v = u := fullGindex_inj S v u hv.1 hu e
      subst this
      rw [fullVal, if_pos hv.2]
    · subst hw
      have : negV S v = u := fullGindex_inj S _ u (negV_valid hv.1) hu e
      subst this
      simp only [fullVal]
      split
      · next h0 =>
        rw [hh v (negV S v) hv ⟨negV_valid hv.1, h0⟩ (negV_mirror S v)]
        simp
      · rw [negV_negV hv.1]
  · left
    by_cases h0 : 0 ≤ u.z
    · exact ⟨_, hp.mem_iff.2 ((mem_complexWrites S hS h s _).2 ⟨u, ⟨hu, h0⟩, Or.inl rfl⟩), rfl⟩
    · have hn := negV_half hu (by omega)
      refine ⟨_, hp.mem_iff.2 ((mem_complexWrites S hS h s _).2 ⟨negV S u, hn, Or.inr rfl⟩), ?_⟩
      simp only [negV_negV hu]

theorem fullVal_neg (S : Size) (h : Arr) (s : ℝ) (hh : HermitianHalf S h) (u : IV) (hu : ValidG S u) :
    fullVal S h s (negV S u) = conj (fullVal S h s u) := by
  unfold fullVal
  by_cases h0 : 0 ≤ u.z
  · rw [if_pos h0]
    by_cases h1 : 0 ≤ (negV S u).z
    · rw [if_pos h1, hh u (negV S u) ⟨hu, h0⟩ ⟨negV_valid hu, h1⟩ (negV_mirror S u)]; simp
    · rw [if_neg h1, negV_negV hu]
  · rw [if_neg h0]
    have := (negV_half hu (by omega)).2
    rw [if_pos this]; simp

/-! ### Sums over the grid -/

theorem sum_range_mul' {M : Type*} [AddCommMonoid M] (a c : Nat) (f : Nat → M) :
    ∑ i ∈ Finset.range (a * c), f i = ∑ q ∈ Finset.range a, ∑ z ∈ Finset.range c, f (q * c + z) := by
  induction a with
  | zero => simp
  | succ n ih => rw [Nat.succ_mul, Finset.sum_range_add, ih, Finset.sum_range_succ]

/-- Periodic reflection of a coordinate. -/
def mm (s x : Nat) : Nat := if x = 0 then 0 else s - x

theorem sum_mm {M : Type*} [AddCommMonoid M] (s : Nat) (g : Nat → M) :
    ∑ x ∈ Finset.range s, g (mm s x) = ∑ x ∈ Finset.range s, g x := by
  apply Finset.sum_nbij' (mm s) (mm s)
  · intro x hx; simp only [Finset.mem_range, mm] at *; split <;> omega
  · intro x hx; simp only [Finset.mem_range, mm] at *; split <;> omega
  · intro x hx; simp only [Finset.mem_range, mm] at *; split <;> split <;> omega
  · intro x hx; simp only [Finset.mem_range, mm] at *; split <;> split <;> omega
  · intro x _; rfl

theorem sum_even (P : Nat → ℝ) (m : Nat) (hm : 0 < m) (hP : ∀ z, 0 < z → z < 2 * m → P (2 * m - z) = P z) :
    ∑ z ∈ Finset.range (2 * m), P z = 2 * ∑ z ∈ Finset.range (m + 1), P z - P 0 - P m := by
  obtain ⟨k, rfl⟩ : ∃ k, m = k + 1 := ⟨m - 1, by omega⟩
  have e1 : 2 * (k + 1) = (k + 2) + k := by ring
  rw [e1, Finset.sum_range_add]
  have e2 : ∑ x ∈ Finset.range k, P (k + 2 + x) = ∑ x ∈ Finset.range k, P (x + 1) := by
    rw [← Finset.sum_range_reflect]
    apply Finset.sum_congr rfl
    intro x hx
    have hx' := Finset.mem_range.1 hx
    rw [← hP (x + 1) (by omega) (by omega)]
    congr 1; omega
  have e3 : ∑ z ∈ Finset.range (k + 1 + 1), P z = P 0 + ∑ x ∈ Finset.range k, P (x + 1) + P (k + 1) := by
    rw [Finset.sum_range_succ, Finset.sum_range_succ']; ring
  rw [e2]
  have e4 : k + 2 = k + 1 + 1 := rfl
  rw [e4, e3]; ring

/-- Coordinates `(x, y, z)` as an index into the full box. -/
def ridx (S : Size) (x y z : Nat) : Nat := (x * S.s1 + y) * S.s2 + z

theorem half_total (S : Size) (hS : S.Pos) (h2 : S.s2 = 1 ∨ S.s2 % 2 = 0) (r r' : Nat → ℝ)
    (hr : ∀ q < S.s0 * S.s1, ∀ z < S.s2 / 2 + 1, r' (q * (S.s2 / 2 + 1) + z) = r (q * S.s2 + z))
    (hm : ∀ x < S.s0, ∀ y < S.s1, ∀ z, 0 < z → z < S.s2 →
      r (ridx S (mm S.s0 x) (mm S.s1 y) (S.s2 - z)) = r (ridx S x y z)) :
    ∑ i ∈ Finset.range (nr S), r i = 2 * ∑ j ∈ Finset.range (nG S), r' j
      - ∑ q ∈ Finset.range (S.s0 * S.s1), r' (q * (S.s2 / 2 + 1))
      - (if S.s2 / 2 + 1 = 1 then 0 else ∑ q ∈ Finset.range (S.s0 * S.s1), r' (S.s2 / 2 + q * (S.s2 / 2 + 1))) := by
  have hPos := hS.2.2
  unfold nr nG
  rw [sum_range_mul' (S.s0 * S.s1) S.s2, sum_range_mul' (S.s0 * S.s1) (S.s2 / 2 + 1),
    Finset.sum_comm (s := Finset.range (S.s0 * S.s1)) (t := Finset.range S.s2)]
  have eh : ∑ q ∈ Finset.range (S.s0 * S.s1), ∑ z ∈ Finset.range (S.s2 / 2 + 1), r' (q * (S.s2 / 2 + 1) + z)
      = ∑ z ∈ Finset.range (S.s2 / 2 + 1), ∑ q ∈ Finset.range (S.s0 * S.s1), r (q * S.s2 + z) := by
    rw [Finset.sum_comm]
    refine Finset.sum_congr rfl fun z hz => Finset.sum_congr rfl fun q hq => ?_
    exact hr q (Finset.mem_range.1 hq) z (Finset.mem_range.1 hz)
  have e0 : ∑ q ∈ Finset.range (S.s0 * S.s1), r' (q * (S.s2 / 2 + 1))
      = ∑ q ∈ Finset.range (S.s0 * S.s1), r (q * S.s2 + 0) := by
    refine Finset.sum_congr rfl fun q hq => ?_
    rw [← hr q (Finset.mem_range.1 hq) 0 (by omega)]; rfl
  have el : ∑ q ∈ Finset.range (S.s0 * S.s1), r' (S.s2 / 2 + q * (S.s2 / 2 + 1))
      = ∑ q ∈ Finset.range (S.s0 * S.s1), r (q * S.s2 + S.s2 / 2) := by
    refine Finset.sum_congr rfl fun q hq => ?_
    rw [← hr q (Finset.mem_range.1 hq) (S.s2 / 2) (by omega), add_comm]
  rw [eh, e0, el]
  set P : Nat → ℝ := fun z => ∑ q ∈ Finset.range (S.s0 * S.s1), r (q * S.s2 + z) with hPdef
  have sym : ∀ z, 0 < z → z < S.s2 → P (S.s2 - z) = P z := by
    intro z hz hz'
    have ex : ∀ w, P w = ∑ x ∈ Finset.range S.s0, ∑ y ∈ Finset.range S.s1, r (ridx S x y w) := by
      intro w; rw [hPdef]; simp only; rw [sum_range_mul']; rfl
    rw [ex, ex, ← sum_mm]
    refine Finset.sum_congr rfl fun x hx => ?_
    rw [← sum_mm]
    exact Finset.sum_congr rfl fun y hy => hm x (Finset.mem_range.1 hx) y (Finset.mem_range.1 hy) z hz hz'
  rcases h2 with h2 | h2
  · have : S.s2 / 2 + 1 = 1 := by omega
    have e1 : ∑ q ∈ Finset.range (S.s0 * S.s1), r (q * S.s2 + 0) = P 0 := rfl
    rw [if_pos this, this, e1, h2]
    simp only [Finset.sum_range_one]; ring
  · obtain ⟨m, hm'⟩ : ∃ m, S.s2 = 2 * m := ⟨S.s2 / 2, by omega⟩
    have hm0 : 0 < m := by omega
    have hh : S.s2 / 2 = m := by omega
    rw [if_neg (by omega), hh]
    have := sum_even P m hm0 (fun z h1 h2 => by rw [← hm']; exact sym z h1 (by omega))
    rw [← hm'] at this
    exact this

/-- The index of a half-grid point in the full box. -/
theorem half_full_index (S : Size) (hS : S.Pos) (q z : Nat) (hq : q < S.s0 * S.s1) (hz : z < S.s2 / 2 + 1) :
    q * (S.s2 / 2 + 1) + z < nG S ∧
    fullGindex S (hStart S (q * (S.s2 / 2 + 1) + z)) = ((q * S.s2 + z : Nat) : Int) := by
  have hlt : q * (S.s2 / 2 + 1) + z < nG S := by
    unfold nG
    calc q * (S.s2 / 2 + 1) + z < q * (S.s2 / 2 + 1) + (S.s2 / 2 + 1) := by omega
      _ = (q + 1) * (S.s2 / 2 + 1) := by ring
      _ ≤ _ := Nat.mul_le_mul_right _ hq
  refine ⟨hlt, ?_⟩
  have hr := rStart_valid _ (halfSize_pos S hS) _ hlt
  have hi := rStart_index (halfSize S) (q * (S.s2 / 2 + 1) + z)
  rw [hStart_eq, fullGindex, wrap_foldH S _ hr]
  unfold fullRindex at hi ⊢
  have hz' := hr.2.2
  generalize rStart (halfSize S) (q * (S.s2 / 2 + 1) + z) = v at *
  simp only [halfSize, size2] at hi hz'
  set c : Int := ((S.s2 / 2 + 1 : Nat) : Int) with hc
  have h1 := idx_divmod (c := c) (z := v.z) (q := v.y + S.s1 * v.x) ⟨hz'.1, hz'.2⟩
  have h2 := idx_divmod (c := c) (z := (z : Int)) (q := (q : Int)) ⟨by omega, by omega⟩
  have e : v.z + c * (v.y + S.s1 * v.x) = z + c * q := by
    rw [hi, hc]; push_cast; ring
  rw [e] at h1
  have hq' : v.y + S.s1 * v.x = q := h1.1.symm.trans h2.1
  have hz'' : v.z = z := h1.2.symm.trans h2.2
  rw [hq', hz'']; push_cast; ring

theorem fold_dvd (s x : Nat) (h : x < s) : (s : Int) ∣ fold1 s x + fold1 s (mm s x) := by
  unfold fold1 mm
  split <;> split <;> split <;>
    first | exact ⟨0, by omega⟩ | exact ⟨-1, by omega⟩ | exact ⟨1, by omega⟩

/-- Hermitian symmetry in terms of box coordinates. -/
theorem hermitian_ridx' (S : Size) (F : Arr) (hF : HermitianFull S F) (x y z : Nat) (hx : x < S.s0) (hy : y < S.s1)
    (hz : z < S.s2) :
    F (ridx S (mm S.s0 x) (mm S.s1 y) (mm S.s2 z) : Nat) = conj (F (ridx S x y z : Nat)) := by
  have mmlt : ∀ s a : Nat, a < s → mm s a < s := by intro s a h; unfold mm; split <;> omega
  have v1 : ValidR S ⟨x, y, z⟩ := ⟨⟨by simp, by simpa using hx⟩, ⟨by simp, by simpa using hy⟩, ⟨by simp, by simpa using hz⟩⟩
  have v2 : ValidR S ⟨mm S.s0 x, mm S.s1 y, mm S.s2 z⟩ :=
    ⟨⟨by simp, by simpa using mmlt _ _ hx⟩, ⟨by simp, by simpa using mmlt _ _ hy⟩, ⟨by simp, by simpa using mmlt _ _ hz⟩⟩
  have := hF (foldV S ⟨x, y, z⟩) (foldV S ⟨mm S.s0 x, mm S.s1 y, mm S.s2 z⟩) (foldV_valid S _ v1) (foldV_valid S _ v2)
    ⟨fold_dvd _ _ hx, fold_dvd _ _ hy, fold_dvd _ _ hz⟩
  simp only [fullGindex, wrap_foldV S _ v1, wrap_foldV S _ v2, fullRindex] at this
  have e1 : ((ridx S (mm S.s0 x) (mm S.s1 y) (mm S.s2 z) : Nat) : Int)
      = mm S.s2 z + S.s2 * (mm S.s1 y + S.s1 * mm S.s0 x) := by unfold ridx; push_cast; ring
  have e2 : ((ridx S x y z : Nat) : Int) = z + S.s2 * (y + S.s1 * x) := by unfold ridx; push_cast; ring
  rw [e1, e2]; exact this

theorem hermitian_ridx (S : Size) (F : Arr) (hF : HermitianFull S F) (x y z : Nat) (hx : x < S.s0) (hy : y < S.s1)
    (hz0 : 0 < z) (hz : z < S.s2) :
    F (ridx S (mm S.s0 x) (mm S.s1 y) (S.s2 - z) : Nat) = conj (F (ridx S x y z : Nat)) := by
  have hmz : S.s2 - z = mm S.s2 z := by unfold mm; rw [if_neg (by omega)]
  rw [hmz]; exact hermitian_ridx' S F hF x y z hx hy hz

end Jdftx.Box
