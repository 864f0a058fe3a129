import Verif.Lemmas.FluidGrid
import Verif.Model.FluidFex
import Verif.Props.BoxField
import Mathlib.Analysis.SpecialFunctions.Pow.Deriv
import Mathlib.Analysis.SpecialFunctions.Trigonometric.ArctanDeriv

/-!
# Lemmas for C93: uniform fluids and excess functionals
-/
namespace Jdftx.Fluid
open Box ExCorr Cavity Filter Topology
open scoped ComplexConjugate
noncomputable section

variable (g : Grid)

theorem dotHalf_innerG (h2 : g.S.s2 = 1 ∨ g.S.s2 % 2 = 0) (hS : g.S.Pos) (X Y : Arr) : dotHalf g.S X Y = innerG g X Y := by
  rw [dotHalf_re]
  unfold innerG
  have hn : nG g.S = g.S.s0 * g.S.s1 * (g.S.s2 / 2 + 1) := rfl
  have r : ∀ F : Nat → ℝ, ∑ i ∈ Finset.range (nG g.S), F i = ∑ q ∈ Finset.range (g.S.s0 * g.S.s1), ∑ z ∈ Finset.range (g.S.s2 / 2 + 1), F (q * (g.S.s2 / 2 + 1) + z) :=
    fun F => by rw [hn, sum_range_mul']
  rw [r, r fun i => weight g.S i * _, Finset.mul_sum]
  have e : ∀ q z : Nat, z < g.S.s2 / 2 + 1 → weight g.S (q * (g.S.s2 / 2 + 1) + z) = if z = 0 ∨ 2 * z = g.S.s2 then 1 else 2 := by
    intro q z hz
    rw [weight_eq]
    have : (q * (g.S.s2 / 2 + 1) + z) % size2 g.S = z := by
      unfold size2; rw [mul_comm, Nat.mul_add_mod, Nat.mod_eq_of_lt hz]
    rw [this]
  have key : ∀ f : Nat → ℝ, ∑ z ∈ Finset.range (g.S.s2 / 2 + 1), (if z = 0 ∨ 2 * z = g.S.s2 then (1 : ℝ) else 2) * f z
      = 2 * ∑ z ∈ Finset.range (g.S.s2 / 2 + 1), f z - f 0 - if g.S.s2 / 2 + 1 = 1 then 0 else f (g.S.s2 / 2) := by
    intro f
    rcases h2 with h | h
    · simp [h]; ring
    · have h0 := hS.2.2
      obtain ⟨k, hk⟩ : ∃ k, g.S.s2 = 2 * (k + 1) := ⟨g.S.s2 / 2 - 1, by omega⟩
      have e1 : g.S.s2 / 2 = k + 1 := by omega
      rw [e1, hk, if_neg (by omega), Finset.sum_range_succ, Finset.sum_range_succ', Finset.sum_range_succ f, Finset.sum_range_succ' f]
      have e2 : ∑ z ∈ Finset.range k, (if z + 1 = 0 ∨ 2 * (z + 1) = 2 * (k + 1) then (1 : ℝ) else 2) * f (z + 1) = ∑ z ∈ Finset.range k, 2 * f (z + 1) := by
        refine Finset.sum_congr rfl fun z hz => ?_
        have := Finset.mem_range.1 hz
        rw [if_neg (by omega)]
      rw [e2, ← Finset.mul_sum]
      simp; ring
  have split : ∀ q, ∑ z ∈ Finset.range (g.S.s2 / 2 + 1), weight g.S (q * (g.S.s2 / 2 + 1) + z) * (conj (X (q * (g.S.s2 / 2 + 1) + z : Nat)) * Y (q * (g.S.s2 / 2 + 1) + z : Nat)).re
      = 2 * ∑ z ∈ Finset.range (g.S.s2 / 2 + 1), (conj (X (q * (g.S.s2 / 2 + 1) + z : Nat)) * Y (q * (g.S.s2 / 2 + 1) + z : Nat)).re
        - (conj (X (q * (g.S.s2 / 2 + 1) : Nat)) * Y (q * (g.S.s2 / 2 + 1) : Nat)).re
        - if g.S.s2 / 2 + 1 = 1 then 0 else (conj (X (g.S.s2 / 2 + q * (g.S.s2 / 2 + 1) : Nat)) * Y (g.S.s2 / 2 + q * (g.S.s2 / 2 + 1) : Nat)).re := by
    intro q
    have := key fun z => (conj (X (q * (g.S.s2 / 2 + 1) + z : Nat)) * Y (q * (g.S.s2 / 2 + 1) + z : Nat)).re
    simp only [Nat.add_zero] at this
    rw [Nat.add_comm (q * (g.S.s2 / 2 + 1)) (g.S.s2 / 2)] at this
    refine Eq.trans ?_ this
    exact Finset.sum_congr rfl fun z hz => by rw [e q z (Finset.mem_range.1 hz)]
  rw [Finset.sum_congr rfl fun q _ => split q]
  rw [Finset.sum_sub_distrib, Finset.sum_sub_distrib]
  congr 1
  split <;> simp

/-! ### Uniform fields -/

theorem hStart_zero (S : Size) (hS : S.Pos) : hStart S 0 = ⟨0, 0, 0⟩ := by
  have := hS.1
  have := hS.2.1
  have := hS.2.2
  simp only [hStart, Nat.zero_div, Nat.zero_mod, fold1]
  simp

theorem chi_zero (S : Size) (hS : S.Pos) (j : Nat) : chi S 0 j = 1 := by
  unfold chi; rw [hStart_zero S hS]; simp

theorem nG_pos (S : Size) (hS : S.Pos) : 0 < nG S := Nat.mul_pos (Nat.mul_pos hS.1 hS.2.1) (by show 0 < S.s2 / 2 + 1; omega)

theorem sum_zero_only {n : Nat} (hn : 0 < n) (f : Nat → ℝ) (h : ∀ i, 0 < i → i < n → f i = 0) : ∑ i ∈ Finset.range n, f i = f 0 := by
  rw [Finset.sum_eq_single 0]
  · intro i hi h0; exact h i (Nat.pos_of_ne_zero h0) (Finset.mem_range.1 hi)
  · intro h0; exact absurd (Finset.mem_range.2 hn) h0

theorem weight_zero (S : Size) : weight S 0 = 1 := by rw [weight_eq]; simp

theorem fftI_uniform (hS : g.S.Pos) {X : Arr} {N : ℝ} (h : Uniform g X N) (j : Nat) : fftI g.S X j = N := by
  unfold fftI
  rw [sum_zero_only (nG_pos _ hS) _ fun i h0 hi => by rw [h.2 i h0 hi]; simp]
  rw [weight_zero, chi_zero _ hS]
  have : X ((0 : Nat) : Int) = (N : ℂ) := h.1
  rw [this]; simp

theorem uniform_wMul {X : Arr} {N : ℝ} (h : Uniform g X N) (w : Nat → ℝ) : Uniform g (wMul w X) (w 0 * N) := by
  refine ⟨?_, fun i h0 hi => by simp only [wMul]; rw [h.2 i h0 hi]; simp⟩
  simp only [wMul]; rw [h.1]; push_cast; simp [mul_comm]

theorem uniform_sum {α : Type} (l : Finset α) (X : α → Arr) (N : α → ℝ) (h : ∀ a ∈ l, Uniform g (X a) (N a)) : Uniform g (fun i => ∑ a ∈ l, X a i) (∑ a ∈ l, N a) := by
  refine ⟨?_, fun i h0 hi => Finset.sum_eq_zero fun a ha => (h a ha).2 i h0 hi⟩
  push_cast
  exact Finset.sum_congr rfl fun a ha => (h a ha).1

theorem uniform_smul {X : Arr} {N : ℝ} (h : Uniform g X N) (c : ℝ) : Uniform g (fun i => (c : ℂ) * X i) (c * N) := by
  refine ⟨by simp only [h.1]; push_cast; rfl, fun i h0 hi => by simp only [h.2 i h0 hi]; simp⟩

theorem uniform_neg {X : Arr} {N : ℝ} (h : Uniform g X N) : Uniform g (fun i => -X i) (-N) := by
  refine ⟨by simp only [h.1]; push_cast; rfl, fun i h0 hi => by simp only [h.2 i h0 hi]; simp⟩

theorem gvec_zero (G : Fin 3 → Fin 3 → ℝ) (k : Fin 3) : gvec G ⟨0, 0, 0⟩ k = 0 := by simp [gvec]

theorem gradient_uniform (hS : g.S.Pos) {X : Arr} {N : ℝ} (h : Uniform g X N) (k : Fin 3) (j : Nat) : fftI g.S (gradient g.S g.G X k) j = 0 := by
  refine fftI_uniform g hS (N := 0) ⟨?_, fun i h0 hi => ?_⟩ j
  · have := gradient_at g.S hS g.G X k 0 (nG_pos _ hS)
    simp only [Nat.cast_zero] at this
    rw [this]
    simp only [mult, Mgrad, Int.toNat_zero, hStart_zero _ hS, gvec_zero]; simp
  · rw [gradient_at g.S hS g.G X k i hi]; simp only [mult]; rw [h.2 i h0 hi]; simp

theorem Mten_zero (hS : g.S.Pos) : Mten g 0 = ⟨0, 0, 0, 0, 0⟩ := by
  simp only [Mten, hStart_zero _ hS, gvec_zero]; simp

theorem tensor_uniform (hS : g.S.Pos) {X : Arr} {N : ℝ} (h : Uniform g X N) (j : Nat) : tensorI g X j = ⟨0, 0, 0, 0, 0⟩ := by
  have key : ∀ (w : Nat → ℝ) (A : Arr), w 0 = 0 → (∀ i : Nat, i < nG g.S → A i = wMul w X i) → fftI g.S A j = 0 := by
    intro w A hw hA
    rw [fftI_congr g.S A _ hA, fftI_uniform g hS (uniform_wMul g h w), hw, zero_mul]
  have z := Mten_zero g hS
  simp only [tensorI, Tensor.mk.injEq]
  exact ⟨key _ _ (by rw [z]) fun i hi => (tensor_at g hS X i hi).1, key _ _ (by rw [z]) fun i hi => (tensor_at g hS X i hi).2.1,
    key _ _ (by rw [z]) fun i hi => (tensor_at g hS X i hi).2.2.1, key _ _ (by rw [z]) fun i hi => (tensor_at g hS X i hi).2.2.2.1,
    key _ _ (by rw [z]) fun i hi => (tensor_at g hS X i hi).2.2.2.2⟩

theorem sumO_const (n : Nat) (hn : 0 < n) (x : Option ℝ) : sumO n (fun _ => x) = x.map ((n : ℝ) * ·) := by
  unfold sumO
  cases x with
  | none => rw [if_neg (by push Not; exact ⟨0, hn, by simp⟩)]; rfl
  | some a => rw [if_pos (by simp)]; simp

variable {C : Nat} (m : Mix C)

/-- Uniform densities of all spheres. -/
def UniformD (N : Dens m) (n : (c : Fin C) → Fin (m.ns c) → ℝ) : Prop := ∀ c s, Uniform g (N c s) (n c s)

theorem wsum_uniform {N : Dens m} {n : (c : Fin C) → Fin (m.ns c) → ℝ} (h : UniformD g m N n) (w : Sphere → Nat → ℝ) (c : Fin C) : Uniform g (wsum m w N c) (wsumU m w n c) :=
  uniform_sum g Finset.univ _ _ fun s _ => uniform_wMul g (h c s) _

theorem wtot_uniform {N : Dens m} {n : (c : Fin C) → Fin (m.ns c) → ℝ} (h : UniformD g m N n) (w : Sphere → Nat → ℝ) : Uniform g (wtot m w N) (wtotU m w n) :=
  uniform_sum g Finset.univ _ _ fun c _ => wsum_uniform g m h w c

theorem fmtAt_uniform (hS : g.S.Pos) {N : Dens m} {n : (c : Fin C) → Fin (m.ns c) → ℝ} (h : UniformD g m N n) (j : Nat) : fmtAt g (weighted g m N) j = fmtU m n := by
  have t := tensor_uniform g hS (wtot_uniform g m h Sphere.w2m) j
  simp only [fmtAt, fmtU, Fmt.mk.injEq, weighted]
  exact ⟨fftI_uniform g hS (wtot_uniform g m h _) j, fftI_uniform g hS (wtot_uniform g m h _) j, fftI_uniform g hS (wtot_uniform g m h _) j,
    fftI_uniform g hS (wtot_uniform g m h _) j, funext fun k => gradient_uniform g hS (wtot_uniform g m h _) k j,
    funext fun k => gradient_uniform g hS (uniform_neg g (wtot_uniform g m h _)) k j, t⟩

theorem bndAt_uniform (hS : g.S.Pos) {N : Dens m} {n : (c : Fin C) → Fin (m.ns c) → ℝ} (h : UniformD g m N n) (c : Fin C) (j : Nat) :
    bndAt g (n0mol g m N c) (weighted g m N).n2 (weighted g m N).n3 j = bndU m n c := by
  simp only [bndAt, bndU, Bnd.mk.injEq, weighted, n0mol]
  exact ⟨fftI_uniform g hS (wsum_uniform g m h _ c) j, fftI_uniform g hS (wtot_uniform g m h _) j, fftI_uniform g hS (wtot_uniform g m h _) j,
    funext fun k => gradient_uniform g hS (uniform_neg g (wtot_uniform g m h _)) k j⟩

theorem addO_mul (c : ℝ) (l : List (Option ℝ)) : addO (l.map fun x => x.map (c * ·)) = (addO l).map (c * ·) := by
  induction l with
  | nil => simp [addO]
  | cons a l ih =>
    simp only [List.map_cons, addO, ih]
    cases a with
    | none => rfl
    | some a =>
      cases addO l with
      | none => rfl
      | some b => simp [mul_add]

theorem addO_zero {α : Type} (l : List α) : addO (l.map fun _ => some (0 : ℝ)) = some 0 := by
  induction l with
  | nil => rfl
  | cons a l ih => simp only [List.map_cons, addO, ih]; simp

theorem phiFmt_zero : (phiFmt Fmt.zero).map Prod.fst = some 0 := by
  simp [phiFmt, Fmt.zero, phiVal, comb2, comb3, tensorPart, mulVTmv, traceCubed, dot3, pole]

theorem phiBond_zero (Rhm scale : ℝ) : (phiBond Rhm scale ⟨0, 0, 0, fun _ => 0⟩).map Prod.fst = some 0 := by
  have : gContact Rhm ⟨0, 0, 0, fun _ => 0⟩ = 1 := by simp [gContact, pole, zeta]
  simp [phiBond, this]

theorem hardSphere_uniform (hS : g.S.Pos) (hV : g.dV * nr g.S = g.detR) (N : Dens m) (n : (c : Fin C) → Fin (m.ns c) → ℝ) (h : UniformD g m N n)
    (hn : ∀ c s, 0 ≤ n c s) (hw : ∀ c s, 0 < (m.sphere c s).w0 0) : hardSphere g m N = (hardSphereU m n).map (g.detR * ·) := by
  have e1 : PhiFMT g (weighted g m N) = ((phiFmt (fmtU m n)).map Prod.fst).map (g.detR * ·) := by
    unfold PhiFMT
    simp only [fmtAt_uniform g m hS h]
    rw [sumO_const _ (nr_pos _ hS), Option.map_map, ← hV]
    congr 1; funext x; simp only [Function.comp_apply]; ring
  have e2 : ∀ b : Fin C × ℝ × Nat, PhiBond g b.2.1 (bondScale m b.1 b.2) (n0mol g m N b.1) (weighted g m N).n2 (weighted g m N).n3
      = ((phiBond b.2.1 (bondScale m b.1 b.2) (bndU m n b.1)).map Prod.fst).map (g.detR * ·) := by
    intro b
    unfold PhiBond
    simp only [bndAt_uniform g m hS h]
    rw [sumO_const _ (nr_pos _ hS), Option.map_map, ← hV]
    congr 1; funext x; simp only [Function.comp_apply]; ring
  have key : hardSphere g m N = (addO (((phiFmt (fmtU m n)).map Prod.fst).map (m.T * ·) ::
      (allBonds m).map fun b => ((phiBond b.2.1 (bondScale m b.1 b.2) (bndU m n b.1)).map Prod.fst).map (m.T * ·))).map (g.detR * ·) := by
    rw [← addO_mul]
    unfold hardSphere
    simp only [e1, e2, List.map_cons, List.map_map, Option.map_map]
    congr 2
    · congr 1; funext x; simp only [Function.comp_apply]; ring
    · apply List.map_congr_left
      intro b _
      simp only [Function.comp_apply, Option.map_map]
      congr 1; funext x; simp only [Function.comp_apply]; ring
  rw [key]
  unfold hardSphereU
  split
  · rfl
  · rename_i h0
    push Not at h0
    have z : ∀ c s, n c s = 0 := by
      have nn : ∀ c s, 0 ≤ (m.sphere c s).w0 0 * n c s := fun c s => mul_nonneg (hw c s).le (hn c s)
      have z1 := (Finset.sum_eq_zero_iff_of_nonneg fun c _ => Finset.sum_nonneg fun s _ => nn c s).1 h0
      intro c s
      have z2 := (Finset.sum_eq_zero_iff_of_nonneg fun s _ => nn c s).1 (z1 c (Finset.mem_univ c)) s (Finset.mem_univ s)
      rcases mul_eq_zero.1 z2 with h' | h'
      · exact absurd h' (hw c s).ne'
      · exact h'
    have zs : ∀ w c, wsumU m w n c = 0 := fun w c => Finset.sum_eq_zero fun s _ => by rw [z c s, mul_zero]
    have zt : ∀ w, wtotU m w n = 0 := fun w => Finset.sum_eq_zero fun c _ => zs w c
    have f : fmtU m n = Fmt.zero := by simp [fmtU, Fmt.zero, zt]
    have b : ∀ c, bndU m n c = ⟨0, 0, 0, fun _ => 0⟩ := by intro c; simp [bndU, zt, zs]
    simp only [f, b, phiFmt_zero, phiBond_zero, Option.map_some, mul_zero]
    simp only [addO, addO_zero]
    simp

/-- Uniform densities, changed. -/
def umove (n dn : (c : Fin C) → Fin (m.ns c) → ℝ) (t : ℝ) : (c : Fin C) → Fin (m.ns c) → ℝ := fun c s => n c s + t * dn c s

theorem wsumU_moved (w : Sphere → Nat → ℝ) (n dn : (c : Fin C) → Fin (m.ns c) → ℝ) (t : ℝ) (c : Fin C) : wsumU m w (umove m n dn t) c = wsumU m w n c + t * wsumU m w dn c := by
  simp only [wsumU, umove, Finset.mul_sum, ← Finset.sum_add_distrib]
  exact Finset.sum_congr rfl fun s _ => by ring

theorem wtotU_moved (w : Sphere → Nat → ℝ) (n dn : (c : Fin C) → Fin (m.ns c) → ℝ) (t : ℝ) : wtotU m w (umove m n dn t) = wtotU m w n + t * wtotU m w dn := by
  simp only [wtotU, wsumU_moved, Finset.mul_sum, ← Finset.sum_add_distrib]

/-- The uniform fluid is at a regular point. -/
def URegular (n : (c : Fin C) → Fin (m.ns c) → ℝ) : Prop :=
  wtotU m Sphere.w0 n ≠ 0 ∧ FmtRegular (fmtU m n) ∧ ∀ c, ∀ b ∈ m.bonds c, 0 ≤ b.1 ∧ BndRegular (bndU m n c)

theorem hardSphereU_deriv (n dn : (c : Fin C) → Fin (m.ns c) → ℝ) (hr : URegular m n) :
    HasDerivO (fun t => hardSphereU m (umove m n dn t)) (∑ c, ∑ s, hardSphereGradU m n c s * dn c s) 0 := by
  obtain ⟨h0, h1, h2⟩ := hr
  have hmem : ∀ b ∈ allBonds m, b.2 ∈ m.bonds b.1 := by
    intro b hb
    simp only [allBonds, List.mem_flatMap, List.mem_finRange, true_and, List.mem_map] at hb
    obtain ⟨c, p, hp, rfl⟩ := hb
    exact hp
  have z : umove m n dn 0 = n := by funext c s; simp [umove]
  have hF : FDeriv (fun t => fmtU m (umove m n dn t)) (fmtU m dn) 0 := by
    refine ⟨?_, ?_, ?_, ?_, fun k => hasDerivAt_const _ _, fun k => hasDerivAt_const _ _, ⟨hasDerivAt_const _ _, hasDerivAt_const _ _, hasDerivAt_const _ _, hasDerivAt_const _ _, hasDerivAt_const _ _⟩⟩ <;>
      (simp only [fmtU, wtotU_moved]; exact lin _ _ _)
  have hB : ∀ c, BDeriv (fun t => bndU m (umove m n dn t) c) (bndU m dn c) 0 := by
    intro c
    refine ⟨?_, ?_, ?_, fun k => hasDerivAt_const _ _⟩ <;> (simp only [bndU, wtotU_moved, wsumU_moved]; exact lin _ _ _)
  have d0 := (phiFmt_deriv hF (by rw [z]; exact h1)).mapMul m.T
  have db : ∀ b ∈ allBonds m, _ := fun b hb => (phiBond_deriv (scale := bondScale m b.1 b.2) (h2 b.1 b.2 (hmem b hb)).1 (hB b.1) (by rw [z]; exact (h2 b.1 b.2 (hmem b hb)).2)).mapMul m.T
  have d := HasDerivO.addO_cons (allBonds m) d0 db
  simp only [z] at d
  obtain ⟨F, hF', hd⟩ := d
  refine ⟨F, ?_, hd.congr_deriv ?_⟩
  · have hc : ∀ᶠ t in 𝓝 (0 : ℝ), wtotU m Sphere.w0 (umove m n dn t) ≠ 0 := by
      have : ContinuousAt (fun t => wtotU m Sphere.w0 (umove m n dn t)) 0 := hF.n0.continuousAt
      exact this.eventually_ne (by rw [z]; exact h0)
    filter_upwards [hF', hc] with t h1 h2
    unfold hardSphereU
    rw [if_pos h2]; exact h1
  · have hw : ∀ (w : Sphere → Nat → ℝ) (a : ℝ), a * wtotU m w dn = ∑ c, ∑ s, w (m.sphere c s) 0 * a * dn c s := by
      intro w a
      simp only [wtotU, wsumU, Finset.mul_sum]
      exact Finset.sum_congr rfl fun c _ => Finset.sum_congr rfl fun s _ => by ring
    have hb0 : ((allBonds m).map fun b => (bndGradU m b.2.1 (bondScale m b.1 b.2) n b.1).n0 * wsumU m Sphere.w0 dn b.1).sum
        = ∑ c, ∑ s, (m.sphere c s).w0 0 * ((m.bonds c).map fun b => (bndGradU m b.1 (bondScale m c b) n c).n0).sum * dn c s := by
      rw [sum_allBonds m fun c b => (bndGradU m b.1 (bondScale m c b) n c).n0 * wsumU m Sphere.w0 dn c]
      refine Finset.sum_congr rfl fun c _ => ?_
      rw [← list_sum_mul, wsumU, Finset.mul_sum]
      exact Finset.sum_congr rfl fun s _ => by ring
    have eR : ∑ c, ∑ s, hardSphereGradU m n c s * dn c s
        = m.T * (((allBonds m).map fun b => (bndGradU m b.2.1 (bondScale m b.1 b.2) n b.1).n0 * wsumU m Sphere.w0 dn b.1).sum
          + (fmtGradU m n).n0 * wtotU m Sphere.w0 dn + (fmtGradU m n).n1 * wtotU m Sphere.w1 dn
          + ((fmtGradU m n).n2 + ((allBonds m).map fun b => (bndGradU m b.2.1 (bondScale m b.1 b.2) n b.1).n2).sum) * wtotU m Sphere.w2 dn
          + ((fmtGradU m n).n3 + ((allBonds m).map fun b => (bndGradU m b.2.1 (bondScale m b.1 b.2) n b.1).n3).sum) * wtotU m Sphere.w3 dn) := by
      rw [hb0, hw, hw, hw, hw]
      simp only [← Finset.sum_add_distrib]
      rw [Finset.mul_sum]
      refine Finset.sum_congr rfl fun c _ => ?_
      rw [Finset.mul_sum]
      refine Finset.sum_congr rfl fun s _ => ?_
      unfold hardSphereGradU
      rw [if_pos h0]
      ring
    rw [eR]
    have split : ((allBonds m).map fun b => m.T * bdot (bndGradU m b.2.1 (bondScale m b.1 b.2) n b.1) (bndU m dn b.1)).sum
        = m.T * (((allBonds m).map fun b => (bndGradU m b.2.1 (bondScale m b.1 b.2) n b.1).n0 * wsumU m Sphere.w0 dn b.1).sum
          + ((allBonds m).map fun b => (bndGradU m b.2.1 (bondScale m b.1 b.2) n b.1).n2).sum * wtotU m Sphere.w2 dn
          + ((allBonds m).map fun b => (bndGradU m b.2.1 (bondScale m b.1 b.2) n b.1).n3).sum * wtotU m Sphere.w3 dn) := by
      rw [list_sum_mul, list_sum_mul, ← List.sum_map_add, ← List.sum_map_add, ← List.sum_map_mul_left]
      congr 1
      apply List.map_congr_left
      intro b _
      simp only [bdot, bndU, dot3]; ring
    refine (congrArg (_ + ·) split).trans ?_
    have e : fdot (((phiFmt (fmtU m n)).map Prod.snd).getD Fmt.zero) (fmtU m dn) = (fmtGradU m n).n0 * wtotU m Sphere.w0 dn + (fmtGradU m n).n1 * wtotU m Sphere.w1 dn
        + (fmtGradU m n).n2 * wtotU m Sphere.w2 dn + (fmtGradU m n).n3 * wtotU m Sphere.w3 dn := by
      show fdot (fmtGradU m n) (fmtU m dn) = _
      simp only [fdot, fmtU, dot3, tdot]; ring
    rw [e]; ring

end
end Jdftx.Fluid
