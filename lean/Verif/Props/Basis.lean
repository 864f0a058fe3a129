import Verif.Spec.Basis
import Verif.Lemmas.Mat3
import Verif.Model.AutoS
import Verif.Lemmas.Box
import Mathlib.Tactic.Linarith
import Mathlib.Tactic.FieldSimp
import Mathlib.Tactic.LinearCombination
import Mathlib.Tactic.IntervalCases
import Mathlib.Algebra.BigOperators.Fin

/-!
# The plane-wave basis (C35)
-/
namespace Jdftx.Basis
noncomputable section
open M3

theorem mem_loop (b : Int) (hb : 0 ≤ b) (x : Int) : x ∈ loop b ↔ -b ≤ x ∧ x ≤ b := by
  unfold loop
  rw [List.mem_map]
  constructor
  · rintro ⟨n, hn, rfl⟩
    have := List.mem_range.1 hn
    omega
  · rintro ⟨h1, h2⟩
    exact ⟨(x + b).toNat, List.mem_range.2 (by omega), by omega⟩

theorem loop_nodup (b : Int) : (loop b).Nodup := by
  unfold loop
  refine List.Nodup.map ?_ List.nodup_range
  intro m n h; simpa using h

/-- The wave vector computed by the program. -/
theorem isRecip_G (R : Mat ℝ) (hR : det R ≠ 0) (v : V3 ℝ) : IsRecip R v (mulVM v (G R)) := by
  have hd : det R = R 0 0 * (R 1 1 * R 2 2 - R 1 2 * R 2 1) + R 0 1 * (R 1 2 * R 2 0 - R 1 0 * R 2 2) + R 0 2 * (R 1 0 * R 2 1 - R 1 1 * R 2 0) := by
    simp [det, box, dot, cross, row, vec]
  have hv : ∀ i : Fin 3, (v i : ℝ) * det R / det R = v i := fun i => mul_div_cancel_right₀ _ hR
  have key : ∀ i, dot (mulVM v (G R)) (column R i) = 2 * Real.pi * (v i * det R / det R) := by
    intro i
    match i with
    | 0 => simp only [G, inv, mulVM, smul, adjugate, ofCols, cross, row, vec, dot, column]; simp only [div_eq_mul_inv]; generalize (det R)⁻¹ = d; rw [hd]; ring
    | 1 => simp only [G, inv, mulVM, smul, adjugate, ofCols, cross, row, vec, dot, column]; simp only [div_eq_mul_inv]; generalize (det R)⁻¹ = d; rw [hd]; ring
    | 2 => simp only [G, inv, mulVM, smul, adjugate, ofCols, cross, row, vec, dot, column]; simp only [div_eq_mul_inv]; generalize (det R)⁻¹ = d; rw [hd]; ring
  intro i
  rw [key i, hv i]

theorem recip_unique (R : Mat ℝ) (hR : det R ≠ 0) (v b c : V3 ℝ) (hb : IsRecip R v b) (hc : IsRecip R v c) : b = c := by
  have key : ∀ i, dot (fun j => b j - c j) (column R i) = 0 := by
    intro i
    have h1 := hb i
    have h2 := hc i
    simp only [dot] at h1 h2 ⊢
    linarith
  have hd : det R = R 0 0 * (R 1 1 * R 2 2 - R 1 2 * R 2 1) + R 0 1 * (R 1 2 * R 2 0 - R 1 0 * R 2 2) + R 0 2 * (R 1 0 * R 2 1 - R 1 1 * R 2 0) := by
    simp [det, box, dot, cross, row, vec]
  have k0 := key 0
  have k1 := key 1
  have k2 := key 2
  simp only [dot, column, vec] at k0 k1 k2
  have z0 : (b 0 - c 0) * det R = 0 := by
    rw [hd]
    linear_combination (R 1 1 * R 2 2 - R 1 2 * R 2 1) * k0 + (R 1 2 * R 2 0 - R 1 0 * R 2 2) * k1 + (R 1 0 * R 2 1 - R 1 1 * R 2 0) * k2
  have z1 : (b 1 - c 1) * det R = 0 := by
    rw [hd]
    linear_combination (R 2 1 * R 0 2 - R 2 2 * R 0 1) * k0 + (R 2 2 * R 0 0 - R 2 0 * R 0 2) * k1 + (R 2 0 * R 0 1 - R 2 1 * R 0 0) * k2
  have z2 : (b 2 - c 2) * det R = 0 := by
    rw [hd]
    linear_combination (R 0 1 * R 1 2 - R 0 2 * R 1 1) * k0 + (R 0 2 * R 1 0 - R 0 0 * R 1 2) * k1 + (R 0 0 * R 1 1 - R 0 1 * R 1 0) * k2
  funext j
  match j with
  | 0 => exact sub_eq_zero.1 ((mul_eq_zero.1 z0).resolve_right hR)
  | 1 => exact sub_eq_zero.1 ((mul_eq_zero.1 z1).resolve_right hR)
  | 2 => exact sub_eq_zero.1 ((mul_eq_zero.1 z2).resolve_right hR)

theorem energy_eq (R : Mat ℝ) (v : V3 ℝ) : 1/2 * dot v (mulMV (GGT R) v) = kinetic (mulVM v (G R)) := by
  simp only [kinetic, GGT, dot, mulMV, mulMM, mulVM, transpose]
  ring

/-- Cauchy-Schwarz for the wave vector and a lattice vector. -/
theorem comp_bound (R : Mat ℝ) (Ecut : ℝ) (v b : V3 ℝ) (hb : IsRecip R v b) (hE : kinetic b ≤ Ecut) (i : Fin 3) :
    |v i| ≤ Real.sqrt (2 * Ecut) * length (column R i) / (2 * Real.pi) := by
  have hpi := Real.pi_pos
  rw [le_div_iff₀ (by positivity)]
  have h1 : |v i| * (2 * Real.pi) = |dot b (column R i)| := by
    rw [hb i, abs_mul, abs_of_pos (by positivity : 0 < 2 * Real.pi)]; ring
  rw [h1, ← Real.sqrt_sq (abs_nonneg (dot b (column R i))), length, ← Real.sqrt_mul' _ (by nlinarith [sq_nonneg (column R i 0), sq_nonneg (column R i 1), sq_nonneg (column R i 2)])]
  apply Real.sqrt_le_sqrt
  rw [sq_abs]
  generalize column R i = a
  have e : dot b a ^ 2 ≤ (2 * kinetic b) * (a 0 * a 0 + a 1 * a 1 + a 2 * a 2) := by
    simp only [dot, kinetic]
    nlinarith [sq_nonneg (b 0 * a 1 - b 1 * a 0), sq_nonneg (b 0 * a 2 - b 2 * a 0), sq_nonneg (b 1 * a 2 - b 2 * a 1)]
  have : (2 * kinetic b) * (a 0 * a 0 + a 1 * a 1 + a 2 * a 2) ≤ (2 * Ecut) * (a 0 * a 0 + a 1 * a 1 + a 2 * a 2) :=
    mul_le_mul_of_nonneg_right (by linarith) (by nlinarith [sq_nonneg (a 0), sq_nonneg (a 1), sq_nonneg (a 2)])
  linarith

theorem iGbox_bound (R : Mat ℝ) (Ecut : ℝ) (k : V3 ℝ) (i : Fin 3) (g : Int)
    (h : |(g : ℝ) + k i| ≤ Real.sqrt (2 * Ecut) * length (column R i) / (2 * Real.pi)) : -iGbox R Ecut k i ≤ g ∧ g ≤ iGbox R Ecut k i := by
  unfold iGbox
  generalize Real.sqrt (2 * Ecut) * length (column R i) / (2 * Real.pi) = B at h
  have h1 := Int.lt_floor_add_one B
  have h2 := Int.le_ceil |k i|
  have h3 : |(g : ℝ)| ≤ B + |k i| := by
    calc |(g : ℝ)| = |((g : ℝ) + k i) - k i| := by ring_nf
      _ ≤ |(g : ℝ) + k i| + |k i| := abs_sub _ _
      _ ≤ B + |k i| := by linarith
  have h4 := abs_le.1 h3
  constructor
  · have : (-((1 + ⌊B⌋ + ⌈|k i|⌉ : Int)) : ℝ) ≤ g := by push_cast; linarith [h4.1]
    exact_mod_cast this
  · have : (g : ℝ) ≤ ((1 + ⌊B⌋ + ⌈|k i|⌉ : Int) : ℝ) := by push_cast; linarith [h4.2]
    exact_mod_cast this

/-- The basis lists, once each, exactly the reciprocal lattice vectors for which the wave vector `k+G` has kinetic energy up to the
cutoff. -/
theorem C35_basis (R : Mat ℝ) (hR : det R ≠ 0) (Ecut : ℝ) (hE : 0 ≤ Ecut) (k : V3 ℝ) :
    ∃ l, iGvec R Ecut k = .ok l ∧ l.Nodup ∧
      ∀ iG : Box.IV, iG ∈ l ↔ ∃ b, IsRecip R (plus iG k) b ∧ kinetic b ≤ Ecut := by
  classical
  unfold iGvec
  rw [if_neg (by linarith)]
  have hpos : ∀ i, 0 ≤ iGbox R Ecut k i := by
    intro i
    unfold iGbox
    have : 0 ≤ ⌊Real.sqrt (2 * Ecut) * length (column R i) / (2 * Real.pi)⌋ := by
      apply Int.floor_nonneg.2
      have := Real.pi_pos
      unfold length
      positivity
    have : 0 ≤ ⌈|k i|⌉ := Int.ceil_nonneg (abs_nonneg _)
    omega
  refine ⟨_, rfl, ?_, ?_⟩
  · apply List.Nodup.filter
    rw [List.nodup_flatMap]
    refine ⟨fun x _ => ?_, ?_⟩
    · rw [List.nodup_flatMap]
      refine ⟨fun y _ => ?_, ?_⟩
      · refine List.Nodup.map ?_ (loop_nodup _)
        intro a b h; exact (Box.IV.mk.inj h).2.2
      · refine List.Nodup.pairwise_of_forall_ne (loop_nodup _) ?_
        intro a _ b _ hab v hv hv'
        obtain ⟨z, _, rfl⟩ := List.mem_map.1 hv
        obtain ⟨z', _, h⟩ := List.mem_map.1 hv'
        exact hab (Box.IV.mk.inj h).2.1.symm
    · refine List.Nodup.pairwise_of_forall_ne (loop_nodup _) ?_
      intro a _ b _ hab v hv hv'
      obtain ⟨y, _, hv⟩ := List.mem_flatMap.1 hv
      obtain ⟨y', _, hv'⟩ := List.mem_flatMap.1 hv'
      obtain ⟨z, _, rfl⟩ := List.mem_map.1 hv
      obtain ⟨z', _, h⟩ := List.mem_map.1 hv'
      exact hab (Box.IV.mk.inj h).1.symm
  · intro iG
    rw [List.mem_filter, decide_eq_true_eq]
    constructor
    · rintro ⟨_, h⟩
      refine ⟨_, isRecip_G R hR (plus iG k), ?_⟩
      rw [← energy_eq]; exact h
    · rintro ⟨b, hb, hE'⟩
      refine ⟨?_, ?_⟩
      · have b0 := iGbox_bound R Ecut k 0 iG.x (comp_bound R Ecut _ b hb hE' 0)
        have b1 := iGbox_bound R Ecut k 1 iG.y (comp_bound R Ecut _ b hb hE' 1)
        have b2 := iGbox_bound R Ecut k 2 iG.z (comp_bound R Ecut _ b hb hE' 2)
        refine List.mem_flatMap.2 ⟨iG.x, (mem_loop _ (hpos 0) _).2 b0, List.mem_flatMap.2 ⟨iG.y, (mem_loop _ (hpos 1) _).2 b1,
          List.mem_map.2 ⟨iG.z, (mem_loop _ (hpos 2) _).2 b2, rfl⟩⟩⟩
      · unfold below
        rw [energy_eq, ← recip_unique R hR _ b _ hb (isRecip_G R hR (plus iG k))]
        exact hE'

/-- The wave vector in `C35_basis` exists and is unique. -/
theorem C35_vector (R : Mat ℝ) (hR : det R ≠ 0) (v : V3 ℝ) : ∃ b, IsRecip R v b ∧ ∀ c, IsRecip R v c → c = b :=
  ⟨_, isRecip_G R hR v, fun c hc => recip_unique R hR v c _ hc (isRecip_G R hR v)⟩

theorem decode_nat (S : Box.Size) (i : Nat) : decode S (i : Int) = Box.foldV S (Box.rStart S i) := by
  have e0 : (i : Int).tdiv ((S.s1 : Int) * (S.s2 : Int)) = ((i / (S.s2 * S.s1) : Nat) : Int) := by
    rw [Nat.mul_comm S.s2 S.s1]
    push_cast
    exact Int.tdiv_eq_ediv_of_nonneg (by positivity)
  have e1 : (i : Int) - (S.s1 : Int) * S.s2 * ((i / (S.s2 * S.s1) : Nat) : Int) = ((i % (S.s2 * S.s1) : Nat) : Int) := by
    have := Nat.div_add_mod i (S.s2 * S.s1)
    have h : ((S.s2 * S.s1 * (i / (S.s2 * S.s1)) + i % (S.s2 * S.s1) : Nat) : Int) = i := by exact_mod_cast this
    push_cast at h ⊢
    linarith [h, mul_comm (S.s1 : Int) S.s2, congrArg (· * (((i : Int) / ((S.s2 : Int) * S.s1)))) (mul_comm (S.s1 : Int) S.s2)]
  have e2 : ((i % (S.s2 * S.s1) : Nat) : Int).tdiv (S.s2 : Int) = (((i / S.s2) % S.s1 : Nat) : Int) := by
    rw [← Nat.mod_mul_right_div_self, Int.natCast_ediv, Int.tdiv_eq_ediv_of_nonneg (Int.natCast_nonneg _)]
  have e3 : ((i % (S.s2 * S.s1) : Nat) : Int) - (S.s2 : Int) * (((i / S.s2) % S.s1 : Nat) : Int) = ((i % S.s2 : Nat) : Int) := by
    rw [← Nat.mod_mul_right_div_self]
    have := Nat.div_add_mod (i % (S.s2 * S.s1)) S.s2
    rw [Nat.mod_mul_right_mod] at this
    have h : ((S.s2 * (i % (S.s2 * S.s1) / S.s2) + i % S.s2 : Nat) : Int) = ((i % (S.s2 * S.s1) : Nat) : Int) := by exact_mod_cast this
    push_cast at h ⊢
    linarith
  unfold decode
  simp only [e0, e1, e2, e3]
  rfl

/-- A cubic cell meets the hypotheses. -/
example : det (diag (1 : ℝ) 1 1) ≠ 0 ∧ (0 : ℝ) ≤ 5 := by
  constructor
  · simp [det, box, dot, cross, row, vec, diag]
  · norm_num

/-- Rebuilding a vector from its index in the full grid gives the vector back (so distinct vectors have distinct indices), and the
index is inside the grid. -/
theorem C35_index (S : Box.Size) (hS : S.Pos) (v : Box.IV) (hv : Box.ValidG S v) :
    0 ≤ Box.fullGindex S v ∧ Box.fullGindex S v < Box.nr S ∧ decode S (Box.fullGindex S v) = v := by
  have hw := Box.wrap_valid S v hv
  have hr := Box.fullRindex_range S _ hw
  refine ⟨hr.1, hr.2, ?_⟩
  obtain ⟨i, hi⟩ := Int.eq_ofNat_of_zero_le hr.1
  have hi' : Box.fullGindex S v = (i : Int) := hi
  have hlt : i < Box.nr S := by have := hr.2; rw [hi] at this; exact_mod_cast this
  rw [hi', decode_nat]
  have : Box.rStart S i = Box.wrapGcoords S v := by
    apply Box.fullRindex_inj S _ _ (Box.rStart_valid S hS i hlt) hw
    rw [Box.rStart_index]; exact hi.symm
  rw [this, Box.foldV_wrap S v hv]

/-- With the sample counts of at least the minimum of `GridInfo::initialize` and `k` in the first cell, every vector of the basis has an
index of its own in the full grid. -/
theorem C35_fits (R : Mat ℝ) (hR : det R ≠ 0) (Ecut GmaxRho : ℝ) (hE : 0 < Ecut) (k : V3 ℝ) (hk : ∀ i, |k i| ≤ 1/2) (S : Box.Size)
    (h0 : Grid.sminOf (Real.sqrt (2 * Ecut)) GmaxRho (2 * Real.pi) (fun i => length (column R i)) 0 ≤ S.s0)
    (h1 : Grid.sminOf (Real.sqrt (2 * Ecut)) GmaxRho (2 * Real.pi) (fun i => length (column R i)) 1 ≤ S.s1)
    (h2 : Grid.sminOf (Real.sqrt (2 * Ecut)) GmaxRho (2 * Real.pi) (fun i => length (column R i)) 2 ≤ S.s2) :
    ∃ l, iGvec R Ecut k = .ok l ∧ (indexVec S l).Nodup ∧ (∀ n ∈ indexVec S l, 0 ≤ n ∧ n < Box.nr S) ∧ (indexVec S l).map (decode S) = l := by
  obtain ⟨l, hl, hnd, hmem⟩ := C35_basis R hR Ecut hE.le k
  have hpi := Real.pi_pos
  have hlen : ∀ i, 0 < length (column R i) := by
    intro i
    apply Real.sqrt_pos.2
    by_contra hn
    have hz : ∀ j, column R i j = 0 := by
      have hs : column R i 0 * column R i 0 + column R i 1 * column R i 1 + column R i 2 * column R i 2 ≤ 0 := by linarith [not_lt.1 hn]
      intro j
      have a0 := mul_self_nonneg (column R i 0)
      have a1 := mul_self_nonneg (column R i 1)
      have a2 := mul_self_nonneg (column R i 2)
      match j with
      | 0 => exact mul_self_eq_zero.1 (by linarith)
      | 1 => exact mul_self_eq_zero.1 (by linarith)
      | 2 => exact mul_self_eq_zero.1 (by linarith)
    apply hR
    have z0 : R 0 i = 0 := hz 0
    have z1 : R 1 i = 0 := hz 1
    have z2 : R 2 i = 0 := hz 2
    have hd : det R = R 0 0 * (R 1 1 * R 2 2 - R 1 2 * R 2 1) + R 0 1 * (R 1 2 * R 2 0 - R 1 0 * R 2 2) + R 0 2 * (R 1 0 * R 2 1 - R 1 1 * R 2 0) := by
      simp [det, box, dot, cross, row, vec]
    rw [hd]
    match i, z0, z1, z2 with
    | 0, z0, z1, z2 => rw [z0, z1, z2]; ring
    | 1, z0, z1, z2 => rw [z0, z1, z2]; ring
    | 2, z0, z1, z2 => rw [z0, z1, z2]; ring
  have hsq : 0 < Real.sqrt (2 * Ecut) := Real.sqrt_pos.2 (by linarith)
  have one : ∀ (i : Fin 3) (s : Nat) (g : Int), Grid.sminOf (Real.sqrt (2 * Ecut)) GmaxRho (2 * Real.pi) (fun i => length (column R i)) i ≤ s →
      |(g : ℝ) + k i| ≤ Real.sqrt (2 * Ecut) * length (column R i) / (2 * Real.pi) → Box.Centred s g := by
    intro i s g hs hg
    have hBpos : 0 < Real.sqrt (2 * Ecut) * length (column R i) / (2 * Real.pi) := by have := hlen i; positivity
    have hc : ⌈Real.sqrt (2 * Ecut) * length (column R i) / (2 * Real.pi)⌉ ≤ ⌈max (Real.sqrt (2 * Ecut)) (GmaxRho / 2) * length (column R i) / (2 * Real.pi)⌉ := by
      apply Int.ceil_le_ceil
      have := hlen i
      gcongr
      exact le_max_left _ _
    have hs' : 4 * ⌈Real.sqrt (2 * Ecut) * length (column R i) / (2 * Real.pi)⌉ ≤ (s : Int) := by
      simp only [Grid.sminOf] at hs
      have := le_max_right (1 : Int) (4 * ⌈max (Real.sqrt (2 * Ecut)) (GmaxRho / 2) * length (column R i) / (2 * Real.pi)⌉)
      omega
    generalize Real.sqrt (2 * Ecut) * length (column R i) / (2 * Real.pi) = B at *
    have hc1 : 0 < ⌈B⌉ := Int.ceil_pos.2 hBpos
    have hB := Int.le_ceil B
    have h5 := abs_le.1 hg
    have h6 := abs_le.1 (hk i)
    have up : g < ⌈B⌉ + 1 := by
      have : (g : ℝ) < ((⌈B⌉ + 1 : Int) : ℝ) := by push_cast; linarith [h5.2, h6.1]
      exact_mod_cast this
    have dn : -⌈B⌉ - 1 < g := by
      have : ((-⌈B⌉ - 1 : Int) : ℝ) < g := by push_cast; linarith [h5.1, h6.2]
      exact_mod_cast this
    unfold Box.Centred
    omega
  have hval : ∀ v ∈ l, Box.ValidG S v := by
    intro v hv
    obtain ⟨b, hb, hEb⟩ := (hmem v).1 hv
    exact ⟨one 0 _ _ h0 (comp_bound R Ecut _ b hb hEb 0), one 1 _ _ h1 (comp_bound R Ecut _ b hb hEb 1), one 2 _ _ h2 (comp_bound R Ecut _ b hb hEb 2)⟩
  have hpos : S.Pos := by
    have hm : ∀ i, 1 ≤ Grid.sminOf (Real.sqrt (2 * Ecut)) GmaxRho (2 * Real.pi) (fun i => length (column R i)) i := by
      intro i
      simp only [Grid.sminOf]
      have := le_max_left (1 : Int) (4 * ⌈max (Real.sqrt (2 * Ecut)) (GmaxRho / 2) * length (column R i) / (2 * Real.pi)⌉)
      omega
    exact ⟨lt_of_lt_of_le (hm 0) h0, lt_of_lt_of_le (hm 1) h1, lt_of_lt_of_le (hm 2) h2⟩
  have hdec : (indexVec S l).map (decode S) = l := by
    unfold indexVec
    rw [List.map_map]
    conv_rhs => rw [← List.map_id l]
    apply List.map_congr_left
    intro v hv
    exact (C35_index S hpos v (hval v hv)).2.2
  refine ⟨l, hl, ?_, ?_, hdec⟩
  · apply List.Nodup.of_map (decode S)
    rw [hdec]; exact hnd
  · intro n hn
    obtain ⟨v, hv, rfl⟩ := List.mem_map.1 hn
    have := C35_index S hpos v (hval v hv)
    exact ⟨this.1, this.2.1⟩

example : Box.ValidG ⟨4, 6, 5⟩ ⟨-1, 3, -2⟩ ∧ Box.fullGindex ⟨4, 6, 5⟩ ⟨-1, 3, -2⟩ = 108 := by
  constructor
  · simp [Box.ValidG, Box.Centred]
  · rfl

theorem lt4 (x y z : Int) : x * x + y * y + z * z < 4 ↔ |x| ≤ 1 ∧ |y| ≤ 1 ∧ |z| ≤ 1 := by
  simp only [abs_le]
  constructor
  · intro h
    have hx := mul_self_nonneg x
    have hy := mul_self_nonneg y
    have hz := mul_self_nonneg z
    refine ⟨⟨?_, ?_⟩, ⟨?_, ?_⟩, ?_, ?_⟩ <;> nlinarith
  · rintro ⟨⟨a, b⟩, ⟨c, d⟩, e, f⟩
    nlinarith

/-- The head consists of the positions of the vectors with all components between -1 and 1. -/
theorem C35_head (l : List Box.IV) (n : Nat) :
    n ∈ head l ↔ ∃ v, l[n]? = some v ∧ |v.x| ≤ 1 ∧ |v.y| ≤ 1 ∧ |v.z| ≤ 1 := by
  unfold head
  rw [List.mem_filter, List.mem_range]
  constructor
  · rintro ⟨h, h2⟩
    rw [List.getElem?_eq_getElem h] at h2 ⊢
    exact ⟨_, rfl, (lt4 _ _ _).1 (by simpa using h2)⟩
  · rintro ⟨v, hv, h⟩
    refine ⟨(List.getElem?_eq_some_iff.1 hv).1, ?_⟩
    rw [hv]
    simpa using (lt4 _ _ _).2 h

example : head [⟨0, 0, 2⟩, ⟨1, -1, 1⟩, ⟨0, 0, 0⟩] = [1, 2] := by decide

end
end Jdftx.Basis
