import Verif.Lemmas.BoxField
import Mathlib.Algebra.BigOperators.Fin
import Mathlib.Tactic.Tauto

/-!
# C21-C23, C53: fields in reciprocal space
-/
namespace Jdftx.Box
open scoped ComplexConjugate

/-! ## C21 -/

theorem cgIndex_valid {S : Size} {v : IV} (hv : ValidH S v) : cgIndex S v = some (halfGindex S v) := by
  obtain ⟨⟨hx, hy, hz⟩, h0⟩ := hv
  unfold Centred at hx hy hz
  unfold cgIndex
  rw [if_neg (by omega)]; simp only
  rw [if_neg (by omega), if_neg (by omega)]
  simp only [halfGindex, wrapGcoords, wrap1, if_neg (show ¬ v.z < 0 by omega)]
  congr 1; ring

theorem cgIndex_some {S : Size} {v : IV} {i : Int} (hs : 0 < S.s2) (h0 : 0 ≤ v.z) (h : cgIndex S v = some i) :
    ValidH S v ∧ i = halfGindex S v := by
  have hv : ValidH S v := by
    unfold cgIndex at h
    split at h
    · simp at h
    · simp only at h
      split at h
      · simp at h
      · split at h
        · simp at h
        · unfold ValidH ValidG Centred; omega
  refine ⟨hv, ?_⟩
  rw [cgIndex_valid hv] at h
  simpa using h.symm

theorem cgIndexFull_valid {S : Size} {v : IV} (hv : ValidG S v) : cgIndexFull S v = some (fullGindex S v) := by
  obtain ⟨hx, hy, hz⟩ := hv
  unfold Centred at hx hy hz
  unfold cgIndexFull
  rw [if_neg (by omega)]; simp only
  rw [if_neg (by omega), if_neg (by omega)]
  simp only [fullGindex, fullRindex, wrapGcoords, wrap1]
  congr 1; ring

theorem cgIndexFull_some {S : Size} {v : IV} {i : Int} (h : cgIndexFull S v = some i) :
    ValidG S v ∧ i = fullGindex S v := by
  have hv : ValidG S v := by
    unfold cgIndexFull at h
    split at h
    · simp at h
    · simp only at h
      split at h
      · simp at h
      · split at h
        · simp at h
        · unfold ValidG Centred; omega
  refine ⟨hv, ?_⟩
  rw [cgIndexFull_valid hv] at h
  simpa using h.symm

theorem smax_pos {A B : Size} (hA : A.Pos) : (smax A B).Pos := by
  obtain ⟨a, b, c⟩ := hA
  refine ⟨?_, ?_, ?_⟩ <;> simp only [smax] <;> omega

theorem smax_valid {A B : Size} {v : IV} (hv : ValidG A v) : ValidG (smax A B) v := by
  unfold ValidG Centred smax at *; simp only; omega

theorem mem_cgCopies (Sin Sout : Size) (h1 : Sin.Pos) (h2 : Sout.Pos) (c : Int × Int) :
    c ∈ cgCopies Sin Sout ↔ ∃ v, ValidH Sin v ∧ ValidH Sout v ∧ c = (halfGindex Sin v, halfGindex Sout v) := by
  unfold cgCopies
  rw [hLoop_all _ (smax_pos h1)]
  simp only [List.mem_filterMap, List.mem_map, List.mem_range]
  constructor
  · rintro ⟨p, ⟨k, hk, rfl⟩, h⟩
    have hz := (hStart_valid _ (smax_pos h1) k hk).2
    simp only [cgPair] at h
    cases hi : cgIndex Sin (hStart (smax Sin Sout) k) with
    | none => simp [hi] at h
    | some i =>
      cases ho : cgIndex Sout (hStart (smax Sin Sout) k) with
      | none => simp [hi, ho] at h
      | some o =>
        simp only [hi, ho, Option.some.injEq] at h
        obtain ⟨v1, e1⟩ := cgIndex_some h1.2.2 hz hi
        obtain ⟨v2, e2⟩ := cgIndex_some h2.2.2 hz ho
        exact ⟨_, v1, v2, by rw [← h, e1, e2]⟩
  · rintro ⟨v, hv, hw, rfl⟩
    obtain ⟨k, hk, e, _⟩ := hStart_of_valid (smax Sin Sout) (smax_pos h1) v ⟨smax_valid hv.1, hv.2⟩
    refine ⟨_, ⟨k, hk, rfl⟩, ?_⟩
    simp only [cgPair, e, cgIndex_valid hv, cgIndex_valid hw]

/-- Resampling a real field: whatever the order in which threads perform the copies, every copy reads and writes within
bounds, each coefficient of the result that is representable on both grids equals the coefficient of the input at the same
coordinates, and every other coefficient is zero. -/
theorem C21_changeGrid (Sin Sout : Size) (h1 : Sin.Pos) (h2 : Sout.Pos) (fin : Arr) (copies : List (Int × Int))
    (hp : copies.Perm (cgCopies Sin Sout)) :
    (∀ c ∈ copies, (0 ≤ c.1 ∧ c.1 < nG Sin) ∧ (0 ≤ c.2 ∧ c.2 < nG Sout)) ∧
    (∀ v, ValidH Sout v → ValidH Sin v → cgRun copies fin (halfGindex Sout v) = fin (halfGindex Sin v)) ∧
    (∀ v, ValidH Sout v → ¬ ValidH Sin v → cgRun copies fin (halfGindex Sout v) = 0) := by
  have mem : ∀ c, c ∈ copies ↔ ∃ v, ValidH Sin v ∧ ValidH Sout v ∧ c = (halfGindex Sin v, halfGindex Sout v) :=
    fun c => hp.mem_iff.trans (mem_cgCopies Sin Sout h1 h2 c)
  refine ⟨?_, ?_, ?_⟩
  · intro c hc
    obtain ⟨v, hv, hw, rfl⟩ := (mem c).1 hc
    exact ⟨halfGindex_range _ _ hv, halfGindex_range _ _ hw⟩
  · intro v hw hv
    unfold cgRun
    apply applyWrites_hit
    · intro w hwm e
      obtain ⟨c, hc, rfl⟩ := List.mem_map.1 hwm
      obtain ⟨u, hu, hu', rfl⟩ := (mem c).1 hc
      have : u = v := halfGindex_inj Sout u v hu' hw e
      subst this; rfl
    · exact Or.inl ⟨_, List.mem_map.2 ⟨_, (mem _).2 ⟨v, hv, hw, rfl⟩, rfl⟩, rfl⟩
  · intro v hw hv
    unfold cgRun
    rw [applyWrites_miss]
    intro w hwm e
    obtain ⟨c, hc, rfl⟩ := List.mem_map.1 hwm
    obtain ⟨u, hu, hu', rfl⟩ := (mem c).1 hc
    have : u = v := halfGindex_inj Sout u v hu' hw e
    subst this; exact hv hu

/-- Going to a grid that is at least as fine in every direction and back loses nothing. -/
theorem C21_round_trip (S S' : Size) (hS : S.Pos) (hS' : S'.Pos) (h : S.s0 ≤ S'.s0 ∧ S.s1 ≤ S'.s1 ∧ S.s2 ≤ S'.s2)
    (f : Arr) (c c' : List (Int × Int)) (hc : c.Perm (cgCopies S S')) (hc' : c'.Perm (cgCopies S' S)) :
    ∀ i : Nat, i < nG S → cgRun c' (cgRun c f) i = f i := by
  intro i hi
  have hv := hStart_valid S hS i hi
  have hv' : ValidH S' (hStart S i) := by
    refine ⟨?_, hv.2⟩
    have := hv.1; unfold ValidG Centred at *; omega
  have e := hStart_index S hS i hi
  rw [← e, (C21_changeGrid S' S hS' hS _ c' hc').2.1 _ hv hv', (C21_changeGrid S S' hS hS' _ c hc).2.1 _ hv' hv]

/-- The same for complex fields on the full grid. -/
theorem C21_changeGrid_full (Sin Sout : Size) (h1 : Sin.Pos) (fin : Arr) :
    ∃ all, cgCopiesFull Sin Sout = .ok all ∧ ∀ copies : List (Int × Int), copies.Perm all →
    (∀ c ∈ copies, (0 ≤ c.1 ∧ c.1 < nr Sin) ∧ (0 ≤ c.2 ∧ c.2 < nr Sout)) ∧
    (∀ v, ValidG Sout v → ValidG Sin v → cgRun copies fin (fullGindex Sout v) = fin (fullGindex Sin v)) ∧
    (∀ v, ValidG Sout v → ¬ ValidG Sin v → cgRun copies fin (fullGindex Sout v) = 0) := by
  unfold cgCopiesFull
  rw [gLoop_all _ (smax_pos h1)]
  refine ⟨_, rfl, fun copies hp => ?_⟩
  have mem : ∀ c, c ∈ copies ↔ ∃ v, ValidG Sin v ∧ ValidG Sout v ∧ c = (fullGindex Sin v, fullGindex Sout v) := by
    intro c
    rw [hp.mem_iff]
    simp only [List.mem_filterMap, List.mem_map, List.mem_range]
    constructor
    · rintro ⟨p, ⟨k, hk, rfl⟩, h⟩
      simp only [cgPair] at h
      cases hi : cgIndexFull Sin (gStart (smax Sin Sout) k) with
      | none => simp [hi] at h
      | some i =>
        cases ho : cgIndexFull Sout (gStart (smax Sin Sout) k) with
        | none => simp [hi, ho] at h
        | some o =>
          simp only [hi, ho, Option.some.injEq] at h
          obtain ⟨v1, e1⟩ := cgIndexFull_some hi
          obtain ⟨v2, e2⟩ := cgIndexFull_some ho
          exact ⟨_, v1, v2, by rw [← h, e1, e2]⟩
    · rintro ⟨v, hv, hw, rfl⟩
      obtain ⟨k, hk, e, _⟩ := gStart_of_valid (smax Sin Sout) (smax_pos h1) v (smax_valid hv)
      refine ⟨_, ⟨k, hk, rfl⟩, ?_⟩
      simp only [cgPair, e, cgIndexFull_valid hv, cgIndexFull_valid hw]
  refine ⟨?_, ?_, ?_⟩
  · intro c hc
    obtain ⟨v, hv, hw, rfl⟩ := (mem c).1 hc
    exact ⟨fullGindex_range _ _ hv, fullGindex_range _ _ hw⟩
  · intro v hw hv
    unfold cgRun
    apply applyWrites_hit
    · intro w hwm e
      obtain ⟨c, hc, rfl⟩ := List.mem_map.1 hwm
      obtain ⟨u, hu, hu', rfl⟩ := (mem c).1 hc
      have : u = v := fullGindex_inj Sout u v hu' hw e
      subst this; rfl
    · exact Or.inl ⟨_, List.mem_map.2 ⟨_, (mem _).2 ⟨v, hv, hw, rfl⟩, rfl⟩, rfl⟩
  · intro v hw hv
    unfold cgRun
    rw [applyWrites_miss]
    intro w hwm e
    obtain ⟨c, hc, rfl⟩ := List.mem_map.1 hwm
    obtain ⟨u, hu, hu', rfl⟩ := (mem c).1 hc
    have : u = v := fullGindex_inj Sout u v hu' hw e
    subst this; exact hv hu

theorem C21_round_trip_full (S S' : Size) (hS : S.Pos) (hS' : S'.Pos) (h : S.s0 ≤ S'.s0 ∧ S.s1 ≤ S'.s1 ∧ S.s2 ≤ S'.s2)
    (f : Arr) : ∃ c c', cgCopiesFull S S' = .ok c ∧ cgCopiesFull S' S = .ok c' ∧
      ∀ i : Nat, i < nr S → cgRun c' (cgRun c f) i = f i := by
  obtain ⟨c, hc, h1⟩ := C21_changeGrid_full S S' hS f
  obtain ⟨c', hc', h2⟩ := C21_changeGrid_full S' S hS' (cgRun c f)
  refine ⟨c, c', hc, hc', fun i hi => ?_⟩
  have hv := gStart_valid S hS i hi
  have hv' : ValidG S' (gStart S i) := by unfold ValidG Centred at *; omega
  have e := gStart_index S hS i hi
  rw [← e, (h2 c' (List.Perm.refl _)).2.1 _ hv hv', (h1 c (List.Perm.refl _)).2.1 _ hv' hv]

/-- Refining a real field with a Nyquist component (here 2 samples to 4 along the first direction) does not give the
coefficients of a real field: the Nyquist coefficient is copied to one of the two mirror images only. -/
theorem C21_nyquist_not_real :
    ∃ f : Arr, HermitianHalf ⟨2, 1, 1⟩ f ∧ ¬ HermitianHalf ⟨4, 1, 1⟩ (cgRun (cgCopies ⟨2, 1, 1⟩ ⟨4, 1, 1⟩) f) := by
  refine ⟨fun _ => 1, fun v w _ _ _ => by simp, fun h => ?_⟩
  have hv1 : ValidH ⟨4, 1, 1⟩ ⟨1, 0, 0⟩ := by simp [ValidH, ValidG, Centred]
  have hv2 : ValidH ⟨4, 1, 1⟩ ⟨-1, 0, 0⟩ := by simp [ValidH, ValidG, Centred]
  have hs : Size.Pos ⟨2, 1, 1⟩ := by simp [Size.Pos]
  have key := C21_changeGrid ⟨2, 1, 1⟩ ⟨4, 1, 1⟩ hs (by simp [Size.Pos]) (fun _ => 1) _ (List.Perm.refl _)
  have e1 := key.2.1 ⟨1, 0, 0⟩ hv1 (by simp [ValidH, ValidG, Centred])
  have e2 := key.2.2 ⟨-1, 0, 0⟩ hv2 (by simp [ValidH, ValidG, Centred])
  have := h ⟨1, 0, 0⟩ ⟨-1, 0, 0⟩ hv1 hv2 (by simp [Mirror])
  rw [e1, e2] at this
  simp at this

-- Hypotheses are met: an odd and an even grid, different in all directions.
example : Size.Pos ⟨3, 4, 2⟩ ∧ cgCopies ⟨3, 1, 2⟩ ⟨2, 1, 4⟩ = [(0, 0), (1, 1), (2, 3), (3, 4)] := by
  constructor
  · simp [Size.Pos]
  · decide

/-! ## C22 -/

/-- The full representation of a real field: for every interleaving of the threads' writes and whatever the array held
before, each stored half-space coefficient appears (with the scale factor applied) at its own coordinates, and the result
has the conjugate symmetry of a real field. -/
theorem C22_complex (S : Size) (hS : S.Pos) (h : Arr) (s : ℝ) (hh : HermitianHalf S h) (ws : List (Int × ℂ))
    (hp : ws.Perm (complexWrites S h s)) (a : Arr) :
    (∀ v, ValidH S v → applyWrites ws a (fullGindex S v) = s * h (halfGindex S v)) ∧
    HermitianFull S (applyWrites ws a) := by
  refine ⟨fun v hv => ?_, fun v w hv hw hm => ?_⟩
  · rw [complex_get S hS h s hh ws hp a v hv.1, fullVal, if_pos hv.2]
  · rw [complex_get S hS h s hh ws hp a v hv, complex_get S hS h s hh ws hp a w hw, mirror_unique hv hw hm,
      fullVal_neg S h s hh v hv]

/-- Converting a real field to the full representation and taking the real part gives it back; the imaginary part is zero.
-/
theorem C22_round_trip (S : Size) (hS : S.Pos) (h : Arr) (s s' : ℝ) (hh : HermitianHalf S h)
    (ws wr wi : List (Int × ℂ)) (a b b' : Arr) (hp : ws.Perm (complexWrites S h s))
    (hr : wr.Perm (realWrites S (applyWrites ws a) s')) (hi : wi.Perm (imagWrites S (applyWrites ws a) s')) :
    ∀ i : Nat, i < nG S → applyWrites wr b i = s' * (s * h i) ∧ applyWrites wi b' i = 0 := by
  intro i hlt
  have hv := hStart_valid S hS i hlt
  have e1 := mapWrites_get S hS (fun _ v => realCalc S (applyWrites ws a) s' v) wr hr b i hlt
  have e2 := mapWrites_get S hS (fun _ v => imagCalc S (applyWrites ws a) s' v) wi hi b' i hlt
  have f1 : applyWrites ws a (iFull S (hStart S i)) = s * h i := by
    have := (C22_complex S hS h s hh ws hp a).1 _ hv
    rwa [hStart_index S hS i hlt] at this
  have f2 : applyWrites ws a (iFullRef S (hStart S i)) = conj ((s : ℂ) * h i) := by
    rw [iFullRef_eq hv.1, (C22_complex S hS h s hh ws hp a).2 _ _ hv.1 (negV_valid hv.1) (negV_mirror S _),
      (C22_complex S hS h s hh ws hp a).1 _ hv, hStart_index S hS i hlt]
  constructor
  · rw [e1, realCalc, f1, f2, Complex.conj_conj]; ring
  · rw [e2, imagCalc, f1, f2, Complex.conj_conj, sub_self, mul_zero]

/-- Real and imaginary part of any complex field are real fields, and the complex field is `Re + i Im`. -/
theorem C22_decompose (S : Size) (hS : S.Pos) (F : Arr) (a b : Arr) :
    let re := applyWrites (realWrites S F 1) a
    let im := applyWrites (imagWrites S F 1) b
    HermitianHalf S re ∧ HermitianHalf S im ∧
    ∀ c c', ∀ i : Nat, i < nr S →
      applyWrites (complexWrites S re 1) c i + Complex.I * applyWrites (complexWrites S im 1) c' i = F i := by
  have gr : ∀ v, ValidH S v → applyWrites (realWrites S F 1) a (halfGindex S v)
      = (1/2) * (F (fullGindex S v) + conj (F (fullGindex S (negV S v)))) := by
    intro v hv
    obtain ⟨j, hj, e, e'⟩ := hStart_of_valid S hS v hv
    rw [e']
    refine (mapWrites_get S hS (fun _ v => realCalc S F 1 v) _ (List.Perm.refl _) a j hj).trans ?_
    rw [realCalc, e, iFullRef_eq hv.1]
    simp only [Complex.ofReal_one, one_mul]; rfl
  have gi : ∀ v, ValidH S v → applyWrites (imagWrites S F 1) b (halfGindex S v)
      = -(1/2) * Complex.I * (F (fullGindex S v) - conj (F (fullGindex S (negV S v)))) := by
    intro v hv
    obtain ⟨j, hj, e, e'⟩ := hStart_of_valid S hS v hv
    rw [e']
    refine (mapWrites_get S hS (fun _ v => imagCalc S F 1 v) _ (List.Perm.refl _) b j hj).trans ?_
    rw [imagCalc, e, iFullRef_eq hv.1]
    have : (⟨0, -1 * (1/2)⟩ : ℂ) = -(1/2) * Complex.I := by
      apply Complex.ext <;> simp
    rw [this]; rfl
  have hre : HermitianHalf S (applyWrites (realWrites S F 1) a) := by
    intro v w hv hw hm
    have := mirror_unique hv.1 hw.1 hm
    subst this
    rw [gr v hv, gr _ hw, negV_negV hv.1]
    simp only [map_mul, map_add, Complex.conj_conj, map_div₀, map_one, map_ofNat]; ring
  have him : HermitianHalf S (applyWrites (imagWrites S F 1) b) := by
    intro v w hv hw hm
    have := mirror_unique hv.1 hw.1 hm
    subst this
    rw [gi v hv, gi _ hw, negV_negV hv.1]
    simp only [map_mul, map_sub, map_neg, Complex.conj_conj, map_div₀, map_one, map_ofNat, Complex.conj_I]; ring
  refine ⟨hre, him, fun c c' i hi => ?_⟩
  have hv := gStart_valid S hS i hi
  rw [← gStart_index S hS i hi, complex_get S hS _ 1 hre _ (List.Perm.refl _) c _ hv,
    complex_get S hS _ 1 him _ (List.Perm.refl _) c' _ hv]
  unfold fullVal
  by_cases h0 : 0 ≤ (gStart S i).z
  · rw [if_pos h0, if_pos h0, gr _ ⟨hv, h0⟩, gi _ ⟨hv, h0⟩]
    simp only [Complex.ofReal_one, one_mul]
    linear_combination (1/2) * (-F (fullGindex S (gStart S i)) + conj (F (fullGindex S (negV S (gStart S i))))) * Complex.I_mul_I
  · have hn := negV_half hv (by omega)
    rw [if_neg h0, if_neg h0, gr _ hn, gi _ hn, negV_negV hv]
    simp only [map_mul, map_add, map_sub, map_neg, Complex.conj_conj, map_div₀, map_one, map_ofNat, Complex.conj_I,
      Complex.ofReal_one]
    linear_combination (1/2) * (conj (F (fullGindex S (negV S (gStart S i)))) - F (fullGindex S (gStart S i))) * Complex.I_mul_I

-- A non-constant real field on a 1x1x4 grid (coefficients 1, 2+i, 3).
example : HermitianHalf ⟨1, 1, 4⟩ (fun i => if i = 1 then 2 + Complex.I else if i = 2 then 3 else 1) := by
  rintro ⟨x, y, z⟩ ⟨x', y', z'⟩ ⟨⟨hx, hy, hz⟩, h0⟩ ⟨⟨hx', hy', hz'⟩, h0'⟩ ⟨_, _, hm⟩
  simp only [Centred] at hx hy hz hx' hy' hz' h0 h0' hm
  have ex : x = 0 := by omega
  have ey : y = 0 := by omega
  have ex' : x' = 0 := by omega
  have ey' : y' = 0 := by omega
  subst ex ey ex' ey'
  have : (z = 0 ∧ z' = 0) ∨ (z = 2 ∧ z' = 2) := by omega
  rcases this with ⟨rfl, rfl⟩ | ⟨rfl, rfl⟩ <;> simp [halfGindex, wrapGcoords, wrap1, map_ofNat]

/-! ## C23 -/

theorem re_zdotc (N : Nat) (X Y : Arr) (a b : Nat) :
    (zdotc N X a Y b).re = ∑ j ∈ Finset.range N, (conj (X (j * a : Nat)) * Y (j * b : Nat)).re := by
  unfold zdotc; rw [Complex.re_sum]

theorem dotHalf_re (S : Size) (X Y : Arr) : dotHalf S X Y =
    2 * ∑ j ∈ Finset.range (nG S), (conj (X j) * Y j).re
      - ∑ q ∈ Finset.range (S.s0 * S.s1), (conj (X (q * (S.s2 / 2 + 1) : Nat)) * Y (q * (S.s2 / 2 + 1) : Nat)).re
      - (if S.s2 / 2 + 1 = 1 then 0 else ∑ q ∈ Finset.range (S.s0 * S.s1),
          (conj (X (S.s2 / 2 + q * (S.s2 / 2 + 1) : Nat)) * Y (S.s2 / 2 + q * (S.s2 / 2 + 1) : Nat)).re) := by
  unfold dotHalf
  simp only [Complex.sub_re, re_zdotc]
  have e : (2 * zdotc (nG S) X 1 Y 1).re = 2 * (zdotc (nG S) X 1 Y 1).re := by simp
  rw [e, re_zdotc]
  congr 1
  · simp only [mul_one]
  · split
    · simp
    · rw [re_zdotc]; simp only [shift, Nat.add_sub_cancel]; push_cast; rfl

/-- Inner product. Partial: the number of samples along the last direction must be even or 1, see `C23_violation`. -/
theorem C23_dot_partial (S : Size) (hS : S.Pos) (h2 : S.s2 = 1 ∨ S.s2 % 2 = 0) (X Y : Arr) (hX : HermitianHalf S X)
    (hY : HermitianHalf S Y) (a b : Arr) :
    dotHalf S X Y =
      (dotFull S (applyWrites (complexWrites S X 1) a) (applyWrites (complexWrites S Y 1) b)).re := by
  set F := applyWrites (complexWrites S X 1) a with hF
  set G := applyWrites (complexWrites S Y 1) b with hG
  have cX := C22_complex S hS X 1 hX _ (List.Perm.refl _) a
  have cY := C22_complex S hS Y 1 hY _ (List.Perm.refl _) b
  rw [← hF] at cX; rw [← hG] at cY
  unfold dotFull
  rw [re_zdotc, dotHalf_re]
  have := half_total S hS h2 (fun i => (conj (F i) * G i).re) (fun j => (conj (X j) * Y j).re) ?_ ?_
  · simp only [mul_one]; exact this.symm
  · intro q hq z hz
    obtain ⟨hlt, e⟩ := half_full_index S hS q z hq hz
    have hv := hStart_valid S hS _ hlt
    have e1 := cX.1 _ hv
    have e2 := cY.1 _ hv
    rw [hStart_index S hS _ hlt, e] at e1 e2
    simp only [Complex.ofReal_one, one_mul] at e1 e2
    simp only [e1, e2]
  · intro x hx y hy z hz0 hz
    simp only [hermitian_ridx S F cX.2 x y z hx hy hz0 hz, hermitian_ridx S G cY.2 x y z hx hy hz0 hz, Complex.mul_re,
      Complex.conj_re, Complex.conj_im]
    ring

/-- Norm. -/
theorem C23_nrm2_partial (S : Size) (hS : S.Pos) (h2 : S.s2 = 1 ∨ S.s2 % 2 = 0) (X : Arr) (hX : HermitianHalf S X)
    (a : Arr) :
    nrm2Half S X = Real.sqrt (∑ i ∈ Finset.range (nr S), Complex.normSq (applyWrites (complexWrites S X 1) a i)) := by
  have e := C23_dot_partial S hS h2 X X hX hX a a
  have key : ∀ z : ℂ, (conj z * z).re = Complex.normSq z := by
    intro z; simp [Complex.normSq_apply]
  unfold nrm2Half
  unfold dotFull at e
  rw [re_zdotc, dotHalf_re] at e
  simp only [key, mul_one] at e
  rw [← e]
  simp only [znrm2sq, mul_one, shift, Nat.add_sub_cancel]
  push_cast; rfl

/-- Sum over all coefficients. -/
theorem C23_sum_partial (S : Size) (hS : S.Pos) (h2 : S.s2 = 1 ∨ S.s2 % 2 = 0) (X : Arr) (hX : HermitianHalf S X)
    (a : Arr) :
    ((sumHalf S X : ℝ) : ℂ) = ∑ i ∈ Finset.range (nr S), applyWrites (complexWrites S X 1) a i := by
  set F := applyWrites (complexWrites S X 1) a with hF
  have cX := C22_complex S hS X 1 hX _ (List.Perm.refl _) a
  rw [← hF] at cX
  have hre : sumHalf S X = ∑ i ∈ Finset.range (nr S), (F i).re := by
    have := half_total S hS h2 (fun i => (F i).re) (fun j => (X j).re) ?_ ?_
    · rw [this]
      unfold sumHalf
      simp only [Complex.sub_re]
      have e : ∀ z : ℂ, (2 * z).re = 2 * z.re := by intro z; simp
      rw [e, re_zdotc, re_zdotc]
      congr 1
      · simp
      · split
        · simp
        · rw [re_zdotc]; simp only [shift, Nat.add_sub_cancel, mul_one, Complex.conj_re]; push_cast; rfl
    · intro q hq z hz
      obtain ⟨hlt, e⟩ := half_full_index S hS q z hq hz
      have e1 := cX.1 _ (hStart_valid S hS _ hlt)
      rw [hStart_index S hS _ hlt, e] at e1
      simp only [Complex.ofReal_one, one_mul] at e1
      simp only [e1]
    · intro x hx y hy z hz0 hz
      simp only [hermitian_ridx S F cX.2 x y z hx hy hz0 hz, Complex.conj_re]
  -- the imaginary parts cancel
  have him : ∑ i ∈ Finset.range (nr S), (F i).im = 0 := by
    have hgen : ∀ x < S.s0, ∀ y < S.s1, ∀ z < S.s2, (F (ridx S (mm S.s0 x) (mm S.s1 y) (mm S.s2 z) : Nat)).im
        = - (F (ridx S x y z : Nat)).im := by
      intro x hx y hy z hz
      rw [hermitian_ridx' S F cX.2 x y z hx hy hz, Complex.conj_im]
    have ex : ∑ i ∈ Finset.range (nr S), (F i).im = ∑ x ∈ Finset.range S.s0, ∑ y ∈ Finset.range S.s1,
        ∑ z ∈ Finset.range S.s2, (F (ridx S x y z : Nat)).im := by
      unfold nr; rw [sum_range_mul', sum_range_mul']; rfl
    have h1 : ∑ i ∈ Finset.range (nr S), (F i).im = - ∑ i ∈ Finset.range (nr S), (F i).im := by
      conv_lhs => rw [ex, ← sum_mm]
      rw [ex, ← Finset.sum_neg_distrib]
      refine Finset.sum_congr rfl fun x hx => ?_
      rw [← sum_mm, ← Finset.sum_neg_distrib]
      refine Finset.sum_congr rfl fun y hy => ?_
      rw [← sum_mm, ← Finset.sum_neg_distrib]
      exact Finset.sum_congr rfl fun z hz =>
        hgen x (Finset.mem_range.1 hx) y (Finset.mem_range.1 hy) z (Finset.mem_range.1 hz)
    linarith
  apply Complex.ext
  · rw [Complex.ofReal_re, Complex.re_sum, hre]
  · rw [Complex.ofReal_im, Complex.im_sum, him]

/-- With an odd number of samples (three or more) along the last direction the inner product is wrong: for the real field
with coefficients `0, 1, 1` on a 1x1x3 grid, whose squared norm is 2, `dot` returns 1 and `nrm2` returns `sqrt 1`. -/
theorem C23_violation :
    ∃ X : Arr, HermitianHalf ⟨1, 1, 3⟩ X ∧ dotHalf ⟨1, 1, 3⟩ X X = 1 ∧ nrm2Half ⟨1, 1, 3⟩ X = 1 ∧ sumHalf ⟨1, 1, 3⟩ X = 1 ∧
    ∀ a, (dotFull ⟨1, 1, 3⟩ (applyWrites (complexWrites ⟨1, 1, 3⟩ X 1) a) (applyWrites (complexWrites ⟨1, 1, 3⟩ X 1) a)).re
      = 2 := by
  have hX : HermitianHalf ⟨1, 1, 3⟩ (fun i => if i = 1 then 1 else 0) := by
    rintro ⟨x, y, z⟩ ⟨x', y', z'⟩ ⟨⟨hx, hy, hz⟩, h0⟩ ⟨⟨hx', hy', hz'⟩, h0'⟩ ⟨_, _, hm⟩
    simp only [Centred] at hx hy hz hx' hy' hz' h0 h0' hm
    have : x = 0 ∧ y = 0 ∧ x' = 0 ∧ y' = 0 ∧ z = 0 ∧ z' = 0 := by omega
    obtain ⟨rfl, rfl, rfl, rfl, rfl, rfl⟩ := this
    simp [halfGindex, wrapGcoords, wrap1]
  refine ⟨fun i => if i = 1 then 1 else 0, hX, ?_, ?_, ?_, fun a => ?_⟩
  · norm_num [dotHalf, zdotc, nG, shift, Finset.sum_range_succ]
  · simp only [nrm2Half, znrm2sq, nG, shift, Finset.sum_range_succ, Finset.sum_range_zero]; norm_num
  · simp only [sumHalf, zdotc, nG, shift, Finset.sum_range_succ, Finset.sum_range_zero]; norm_num
  · have hS : Size.Pos ⟨1, 1, 3⟩ := by simp [Size.Pos]
    have c := C22_complex ⟨1, 1, 3⟩ hS _ 1 hX _ (List.Perm.refl _) a
    have v0 : ValidH ⟨1, 1, 3⟩ ⟨0, 0, 0⟩ := by simp [ValidH, ValidG, Centred]
    have v1 : ValidH ⟨1, 1, 3⟩ ⟨0, 0, 1⟩ := by simp [ValidH, ValidG, Centred]
    have v2 : ValidG ⟨1, 1, 3⟩ ⟨0, 0, -1⟩ := by simp [ValidG, Centred]
    have e0 := c.1 _ v0
    have e1 := c.1 _ v1
    have e2 := c.2 _ _ v1.1 v2 (by simp [Mirror])
    rw [e1] at e2
    simp [fullGindex, halfGindex, fullRindex, wrapGcoords, wrap1] at e0 e1 e2
    simp [dotFull, zdotc, nr, Finset.sum_range_succ, e0, e1, e2]
    norm_num

/-! ## C53 -/

/-- A pointwise adjoint relation carries over to the half-space inner products. -/
theorem adjoint_dot {ι : Type} [Fintype ι] (S : Size) (hS : S.Pos) (A V : ι → Arr) (X D : Arr)
    (key : ∀ i : Nat, i < nG S → ∑ k, (conj (A k i) * V k i).re = - (conj (X i) * D i).re) :
    ∑ k, dotHalf S (A k) (V k) = - dotHalf S X D := by
  simp only [dotHalf_re, Finset.sum_sub_distrib, ← Finset.mul_sum]
  have h1 : ∑ k, ∑ j ∈ Finset.range (nG S), (conj (A k j) * V k j).re
      = - ∑ j ∈ Finset.range (nG S), (conj (X j) * D j).re := by
    rw [Finset.sum_comm, ← Finset.sum_neg_distrib]
    exact Finset.sum_congr rfl fun j hj => key j (Finset.mem_range.1 hj)
  have h2 : ∀ f : Nat → Nat, (∀ q < S.s0 * S.s1, f q < nG S) →
      ∑ k, ∑ q ∈ Finset.range (S.s0 * S.s1), (conj (A k (f q : Nat)) * V k (f q : Nat)).re
      = - ∑ q ∈ Finset.range (S.s0 * S.s1), (conj (X (f q : Nat)) * D (f q : Nat)).re := by
    intro f hf
    rw [Finset.sum_comm, ← Finset.sum_neg_distrib]
    exact Finset.sum_congr rfl fun j hj => key (f j) (hf j (Finset.mem_range.1 hj))
  have b0 : ∀ q < S.s0 * S.s1, q * (S.s2 / 2 + 1) < nG S := fun q hq =>
    (half_full_index S hS q 0 hq (by omega)).1
  have bl : ∀ q < S.s0 * S.s1, S.s2 / 2 + q * (S.s2 / 2 + 1) < nG S := fun q hq => by
    have := (half_full_index S hS q (S.s2 / 2) hq (by omega)).1; omega
  rw [h1, h2 _ b0]
  by_cases hc : S.s2 / 2 + 1 = 1
  · simp only [hc, if_true]; simp; ring
  · simp only [hc, if_false]
    rw [h2 _ bl]; ring

/-- `<grad X, V> = -<X, div V>` for the inner product the code uses, for every grid and lattice and all fields. -/
theorem C53_gradient (S : Size) (hS : S.Pos) (G : Fin 3 → Fin 3 → ℝ) (X : Arr) (V : Fin 3 → Arr) :
    ∑ k, dotHalf S (gradient S G X k) (V k) = - dotHalf S X (divergence S G V) := by
  have key : ∀ i : Nat, i < nG S → ∑ k, (conj (gradient S G X k i) * V k i).re
      = - (conj (X i) * divergence S G V i).re := by
    intro i hi
    have ei : conj (iota S (hStart S i)) = - iota S (hStart S i) := by
      apply Complex.ext <;> simp [iota]
    rw [← Complex.re_sum, ← Complex.neg_re]
    congr 1
    simp only [gradient, divergence, halfMap_get S hS _ i hi, map_mul, Complex.conj_ofReal, ei, Fin.sum_univ_three]
    ring
  exact adjoint_dot S hS _ _ _ _ key

/-- Contraction of symmetric traceless tensors, `sum_ab <T_ab, V_ab>`, with the second-derivative operators:
`<tensorGradient X, V> = <X, tensorDivergence V>`. -/
theorem C53_tensor (S : Size) (hS : S.Pos) (G : Fin 3 → Fin 3 → ℝ) (X : Arr) (V : Tensor Arr) :
    ∑ a, ∑ b, dotHalf S (fun i => (tensorGradient S G X).mat i a b) (fun i => V.mat i a b)
      = dotHalf S X (tensorDivergence S G V) := by
  have key : ∀ i : Nat, i < nG S → ∑ p : Fin 3 × Fin 3, (conj ((tensorGradient S G X).mat i p.1 p.2) * V.mat i p.1 p.2).re
      = - (conj (X i) * (- tensorDivergence S G V i)).re := by
    intro i hi
    rw [← Complex.re_sum, ← Complex.neg_re]
    congr 1
    rw [Fintype.sum_prod_type]
    simp only [tensorGradient, tensorDivergence, Tensor.mat, halfMap_get S hS _ i hi, Fin.sum_univ_three]
    by_cases hn : isNyquist S (hStart S i)
    · simp [hn]
    · simp only [hn, map_mul, map_neg, map_sub, map_add, Complex.conj_ofReal, map_div₀, map_one, map_ofNat]
      simp only [Bool.false_eq_true, if_false, map_neg]
      ring
  have := adjoint_dot S hS (fun p : Fin 3 × Fin 3 => fun i => (tensorGradient S G X).mat i p.1 p.2)
    (fun p => fun i => V.mat i p.1 p.2) X (fun i => - tensorDivergence S G V i) key
  rw [Fintype.sum_prod_type] at this
  rw [this]
  rw [dotHalf_re, dotHalf_re]
  simp only [mul_neg, Complex.neg_re, Finset.sum_neg_distrib]
  split <;> ring

/-- The gradient of a real field is real and that of a constant vanishes: components of the gradient have conjugate
symmetry. -/
theorem C53_gradient_real (S : Size) (hS : S.Pos) (G : Fin 3 → Fin 3 → ℝ) (X : Arr) (hX : HermitianHalf S X) (k : Fin 3) :
    HermitianHalf S (gradient S G X k) := by
  intro v w hv hw hm
  obtain ⟨j, hj, ev, ej⟩ := hStart_of_valid S hS v hv
  obtain ⟨j', hj', ew, ej'⟩ := hStart_of_valid S hS w hw
  have hXm := hX v w hv hw hm
  rw [ej, ej'] at hXm
  rw [ej, ej']
  simp only [gradient, halfMap_get S hS _ j hj, halfMap_get S hS _ j' hj', ev, ew, hXm]
  have e := mirror_unique hv.1 hw.1 hm
  have ni : ∀ s : Nat, ∀ g : Int, (2 * neg1 s g - s = 0 ↔ 2 * g - s = 0 ∨ -2 * g = s) := by
    intro s g; unfold neg1; split <;> omega
  by_cases hn : isNyquist S v
  · have hn' : isNyquist S w := by
      rw [e]
      simp only [isNyquist, negV, Bool.or_eq_true, decide_eq_true_eq, ni] at hn ⊢
      tauto
    have z : (⟨0, 0⟩ : ℂ) = 0 := rfl
    simp [iota, hn, hn', z]
  · have hn' : ¬ isNyquist S w := by
      rw [e]
      have hc := hv.1
      unfold ValidG Centred at hc
      simp only [isNyquist, negV, Bool.or_eq_true, decide_eq_true_eq, ni] at hn ⊢
      omega
    have ew' : w = ⟨-v.x, -v.y, -v.z⟩ := by
      rw [e]
      simp only [isNyquist, Bool.or_eq_true, decide_eq_true_eq] at hn
      simp only [negV, neg1, IV.mk.injEq]
      refine ⟨if_neg ?_, if_neg ?_, if_neg ?_⟩ <;> omega
    have eg : gvec G w k = - gvec G v k := by rw [ew']; simp only [gvec]; push_cast; ring
    have i1 : iota S w = Complex.I := by apply Complex.ext <;> simp [iota, hn']
    have i2 : iota S v = Complex.I := by apply Complex.ext <;> simp [iota, hn]
    rw [eg, i1, i2]
    simp only [map_mul, Complex.conj_ofReal, Complex.conj_I, Complex.ofReal_neg]
    ring

example : gvec (fun a b => if a = b then 2 else 0) ⟨1, -2, 3⟩ 1 = -4 := by
  norm_num [gvec, show (2 : Fin 3) ≠ 1 by decide]

end Jdftx.Box
