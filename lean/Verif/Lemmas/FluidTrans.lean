import Verif.Model.FluidTrans
import Verif.Spec.FluidTrans
import Verif.Lemmas.FluidGrid
import Verif.Lemmas.HalfFFT

/-!
# Lemmas on translation operators
-/
namespace Jdftx.Fluid
open Box ExCorr
open scoped ComplexConjugate
noncomputable section

/-! ### Reduction to the first cell -/

theorem wrapC_eq (a : Int) (s : Nat) (hs : 0 < s) : wrapC a s = a % s := by
  unfold wrapC
  have hs' : (s : Int) ≠ 0 := by omega
  simp only
  have h := Int.tmod_eq_emod (a := a) (b := (s : Int))
  have h1 := Int.emod_nonneg a hs'
  have h2 := Int.emod_lt_of_pos a (show (0 : Int) < s by omega)
  have h3 : (s : Int).natAbs = s := Int.natAbs_natCast s
  rw [h3] at h
  split_ifs at h ⊢ <;> omega

theorem reduceL_eq (x : ℝ) (s : Nat) (hs : 0 < s) : reduceL x s = x - s * (⌊x / s⌋ : Int) := by
  have hs' : (0 : ℝ) < s := by exact_mod_cast hs
  unfold reduceL fmodR
  simp only
  by_cases h : x / s < 0
  · rw [if_pos h]
    have hx : x = s * (x / s) := by field_simp
    by_cases hi : ((⌊x / s⌋ : Int) : ℝ) = x / s
    · have hc : ⌈x / s⌉ = ⌊x / s⌋ := by rw [← hi, Int.ceil_intCast, Int.floor_intCast]
      rw [hc, if_neg]
      rw [hi, ← hx]; simp
    · have hc : ⌈x / s⌉ = ⌊x / s⌋ + 1 := by
        rw [Int.ceil_eq_iff]
        push_cast
        have h1 := Int.floor_le (x / s)
        have h2 := Int.lt_floor_add_one (x / s)
        refine ⟨by simpa using lt_of_le_of_ne h1 hi, h2.le⟩
      rw [hc]
      have h2 := Int.lt_floor_add_one (x / s)
      have h3 : x < s * ((⌊x / s⌋ : Int) + 1) := by
        calc x = s * (x / s) := hx
          _ < _ := by exact mul_lt_mul_of_pos_left h2 hs'
      push_cast
      rw [if_pos (by linarith)]
      ring
  · rw [if_neg h]
    have h1 := Int.floor_le (x / s)
    have h3 : (s : ℝ) * (⌊x / s⌋ : Int) ≤ x := by
      calc (s : ℝ) * (⌊x / s⌋ : Int) ≤ s * (x / s) := by exact mul_le_mul_of_nonneg_left h1 hs'.le
        _ = x := by field_simp
    rw [if_neg (by linarith)]

theorem floor_reduce (x : ℝ) (s : Nat) (hs : 0 < s) : ⌊reduceL x s⌋ = ⌊x⌋ % s := by
  rw [reduceL_eq x s hs]
  have e : x - s * (⌊x / s⌋ : Int) = x - ((s * ⌊x / s⌋ : Int) : ℝ) := by push_cast; ring
  rw [e, Int.floor_sub_intCast]
  have h : ⌊x / s⌋ = ⌊x⌋ / (s : Int) := by
    have := Int.floor_div_natCast (k := ℝ) x s
    exact this
  rw [h, Int.emod_def]

theorem intL_eq (x : ℝ) (s : Nat) (hs : 0 < s) : intL x s = ⌊x⌋ % s := by
  unfold intL
  rw [floor_reduce x s hs]
  have h1 := Int.emod_nonneg ⌊x⌋ (show (s : Int) ≠ 0 by omega)
  have h2 := Int.emod_lt_of_pos ⌊x⌋ (show (0 : Int) < s by omega)
  rw [Int.tmod_eq_emod_of_nonneg h1, Int.emod_emod]

theorem fracL_eq (x : ℝ) (s : Nat) (hs : 0 < s) : fracL x s = Int.fract x := by
  unfold fracL
  rw [← Int.fract, reduceL_eq x s hs]
  have e : x - s * (⌊x / s⌋ : Int) = x - ((s * ⌊x / s⌋ : Int) : ℝ) := by push_cast; ring
  rw [e, Int.fract_sub_intCast]

/-! ### Shifts -/

theorem wrappedIndex_eq (S : Size) (v : IV) (hx : 0 ≤ v.x ∧ v.x < 2 * S.s0) (hy : 0 ≤ v.y ∧ v.y < 2 * S.s1) (hz : 0 ≤ v.z ∧ v.z < 2 * S.s2) :
    wrappedIndex S v = fullRindex S ⟨v.x % S.s0, v.y % S.s1, v.z % S.s2⟩ := by
  have key : ∀ (a : Int) (s : Nat), 0 ≤ a ∧ a < 2 * s → (if a ≥ s then a - s else a) = a % s := by
    intro a s h
    split
    · rename_i hc
      rw [← Int.sub_emod_right, Int.emod_eq_of_lt (by omega) (by omega)]
    · rw [Int.emod_eq_of_lt (by omega) (by omega)]
  unfold wrappedIndex fullRindex
  simp only [key _ _ hx, key _ _ hy, key _ _ hz]

variable (S : Size)

/-- A shift by a number of grid points. -/
def shiftF (n : IV) (x : Field) : Field := fun j => per S x ((rStart S j).x + n.x) ((rStart S j).y + n.y) ((rStart S j).z + n.z)

/-- The grid point reached from `j`. -/
def hop (n : IV) (j : Nat) : Nat := (fullRindex S ⟨((rStart S j).x + n.x) % S.s0, ((rStart S j).y + n.y) % S.s1, ((rStart S j).z + n.z) % S.s2⟩).toNat

theorem shiftF_eq (n : IV) (x : Field) (j : Nat) : shiftF S n x j = x (hop S n j) := rfl

theorem mod_valid (hS : S.Pos) (a b c : Int) : ValidR S ⟨a % S.s0, b % S.s1, c % S.s2⟩ := by
  obtain ⟨h0, h1, h2⟩ := hS
  refine ⟨⟨Int.emod_nonneg _ (by omega), Int.emod_lt_of_pos _ (by omega)⟩, ⟨Int.emod_nonneg _ (by omega), Int.emod_lt_of_pos _ (by omega)⟩,
    Int.emod_nonneg _ (by omega), Int.emod_lt_of_pos _ (by omega)⟩

theorem idx_lt {v : IV} (hv : ValidR S v) : (fullRindex S v).toNat < nr S := by
  have := fullRindex_range S v hv
  omega

theorem rStart_idx (hS : S.Pos) {v : IV} (hv : ValidR S v) : rStart S (fullRindex S v).toNat = v := by
  have h := fullRindex_range S v hv
  apply fullRindex_inj S _ _ (rStart_valid S hS _ (idx_lt S hv)) hv
  rw [rStart_index]; omega

theorem hop_lt (hS : S.Pos) (n : IV) (j : Nat) : hop S n j < nr S := idx_lt S (mod_valid S hS _ _ _)

theorem rStart_hop (hS : S.Pos) (n : IV) (j : Nat) : rStart S (hop S n j) = ⟨((rStart S j).x + n.x) % S.s0, ((rStart S j).y + n.y) % S.s1, ((rStart S j).z + n.z) % S.s2⟩ :=
  rStart_idx S hS (mod_valid S hS _ _ _)

theorem mod_cancel (a n : Int) (s : Nat) (h : 0 ≤ a ∧ a < s) : ((a + n) % s + -n) % s = a := by
  rw [Int.emod_add_emod]
  rw [show a + n + -n = a by ring, Int.emod_eq_of_lt h.1 h.2]

theorem hop_back (hS : S.Pos) (n : IV) (j : Nat) (hj : j < nr S) : hop S ⟨-n.x, -n.y, -n.z⟩ (hop S n j) = j := by
  have hv := rStart_valid S hS j hj
  have h := rStart_index S j
  have e : hop S ⟨-n.x, -n.y, -n.z⟩ (hop S n j) = (fullRindex S ⟨((rStart S (hop S n j)).x + -n.x) % S.s0, ((rStart S (hop S n j)).y + -n.y) % S.s1,
    ((rStart S (hop S n j)).z + -n.z) % S.s2⟩).toNat := rfl
  rw [e, rStart_hop S hS]
  simp only [mod_cancel _ _ _ hv.1, mod_cancel _ _ _ hv.2.1, mod_cancel _ _ _ hv.2.2]
  have : (⟨(rStart S j).x, (rStart S j).y, (rStart S j).z⟩ : IV) = rStart S j := rfl
  rw [this, h]; simp

theorem shift_adj (hS : S.Pos) (n : IV) (x y : Field) :
    ∑ j ∈ Finset.range (nr S), shiftF S n x j * y j = ∑ j ∈ Finset.range (nr S), x j * shiftF S ⟨-n.x, -n.y, -n.z⟩ y j := by
  have hn : (⟨-(-n.x), -(-n.y), -(-n.z)⟩ : IV) = n := by simp
  refine Finset.sum_nbij' (hop S n) (hop S ⟨-n.x, -n.y, -n.z⟩) (fun j _ => Finset.mem_range.2 (hop_lt S hS n j)) (fun j _ => Finset.mem_range.2 (hop_lt S hS _ j))
    (fun j hj => hop_back S hS n j (Finset.mem_range.1 hj)) (fun j hj => ?_) fun j hj => ?_
  · have := hop_back S hS ⟨-n.x, -n.y, -n.z⟩ j (Finset.mem_range.1 hj)
    rwa [hn] at this
  · rw [shiftF_eq, shiftF_eq, hop_back S hS n j (Finset.mem_range.1 hj)]

theorem per_mod (x : Field) (a b c n0 n1 n2 : Int) : per S x (a + n0 % S.s0) (b + n1 % S.s1) (c + n2 % S.s2) = per S x (a + n0) (b + n1) (c + n2) := by
  unfold per
  simp only [Int.add_emod_emod]

theorem per_mod1 (x : Field) (a b c n0 n1 n2 k0 k1 k2 : Int) :
    per S x (a + n0 % S.s0 + k0) (b + n1 % S.s1 + k1) (c + n2 % S.s2 + k2) = per S x (a + n0 + k0) (b + n1 + k1) (c + n2 + k2) := by
  have e : ∀ (a n k : Int) (s : Nat), (a + n % s + k) % s = (a + n + k) % s := by
    intro a n k s
    rw [show a + n % s + k = (a + k) + n % s by ring, Int.add_emod_emod]
    congr 1; ring
  unfold per
  simp only [e]

theorem constTrans_eq (hS : S.Pos) (f : Fin 3 → ℝ) (x : Field) (j : Nat) (hj : j < nr S) :
    constTrans S f x j = shiftF S ⟨roundSym (gridT S.s0 (f 0)), roundSym (gridT S.s1 (f 1)), roundSym (gridT S.s2 (f 2))⟩ x j := by
  have hv := rStart_valid S hS j hj
  have hm := mod_valid S hS (roundSym (gridT S.s0 (f 0))) (roundSym (gridT S.s1 (f 1))) (roundSym (gridT S.s2 (f 2)))
  unfold constTrans
  simp only [wrapC_eq _ _ hS.1, wrapC_eq _ _ hS.2.1, wrapC_eq _ _ hS.2.2]
  rw [wrappedIndex_eq]
  · exact per_mod S x _ _ _ _ _ _
  · have := hv.1; have := hm.1; dsimp only at *; omega
  · have := hv.2.1; have := hm.2.1; dsimp only at *; omega
  · have := hv.2.2; have := hm.2.2; dsimp only at *; omega

theorem linTrans_eq (hS : S.Pos) (f : Fin 3 → ℝ) (x : Field) (j : Nat) (hj : j < nr S) :
    linTrans S f x j = lerp (fun a => lerp (fun b => lerp (fun c => shiftF S ⟨a, b, c⟩ x j) (gridT S.s2 (f 2))) (gridT S.s1 (f 1))) (gridT S.s0 (f 0)) := by
  have hv := rStart_valid S hS j hj
  have hm := mod_valid S hS ⌊gridT S.s0 (f 0)⌋ ⌊gridT S.s1 (f 1)⌋ ⌊gridT S.s2 (f 2)⌋
  unfold linTrans
  simp only [intL_eq _ _ hS.1, intL_eq _ _ hS.2.1, intL_eq _ _ hS.2.2, fracL_eq _ _ hS.1, fracL_eq _ _ hS.2.1, fracL_eq _ _ hS.2.2]
  have e : ∀ i0 i1 i2 : Int, (0 ≤ i0 ∧ i0 ≤ 1) → (0 ≤ i1 ∧ i1 ≤ 1) → (0 ≤ i2 ∧ i2 ≤ 1) →
      x (wrappedIndex S ⟨(rStart S j).x + ⌊gridT S.s0 (f 0)⌋ % S.s0 + i0, (rStart S j).y + ⌊gridT S.s1 (f 1)⌋ % S.s1 + i1, (rStart S j).z + ⌊gridT S.s2 (f 2)⌋ % S.s2 + i2⟩).toNat
        = shiftF S ⟨⌊gridT S.s0 (f 0)⌋ + i0, ⌊gridT S.s1 (f 1)⌋ + i1, ⌊gridT S.s2 (f 2)⌋ + i2⟩ x j := by
    intro i0 i1 i2 h0 h1 h2
    rw [wrappedIndex_eq]
    · refine (per_mod1 S x _ _ _ _ _ _ _ _ _).trans ?_
      unfold shiftF
      simp only [add_assoc]
    · have := hv.1; have := hm.1; dsimp only at *; omega
    · have := hv.2.1; have := hm.2.1; dsimp only at *; omega
    · have := hv.2.2; have := hm.2.2; dsimp only at *; omega
  unfold interpLoop lerp
  simp only [e 0 0 0 (by omega) (by omega) (by omega), e 0 0 1 (by omega) (by omega) (by omega), e 0 1 0 (by omega) (by omega) (by omega),
    e 0 1 1 (by omega) (by omega) (by omega), e 1 0 0 (by omega) (by omega) (by omega), e 1 0 1 (by omega) (by omega) (by omega),
    e 1 1 0 (by omega) (by omega) (by omega), e 1 1 1 (by omega) (by omega) (by omega)]
  simp only [add_zero]

theorem roundSym_neg (x : ℝ) : roundSym (-x) = -roundSym x := by
  unfold roundSym
  rw [abs_neg]
  rcases lt_trichotomy x 0 with h | h | h
  · rw [if_neg (by linarith), if_pos h, neg_neg]
  · subst h
    have : ⌊|(0 : ℝ)| + 0.5⌋ = 0 := by rw [Int.floor_eq_iff]; norm_num
    rw [this]; simp
  · rw [if_pos (by linarith), if_neg (by linarith)]

theorem roundSym_int (n : Int) : roundSym n = n := by
  unfold roundSym
  have : ⌊|(n : ℝ)| + 0.5⌋ = |n| := by
    rw [Int.floor_eq_iff]; push_cast
    constructor <;> norm_num
  rw [this]
  split
  · rename_i h
    have h' : n < 0 := by exact_mod_cast h
    rw [abs_of_neg h', neg_neg]
  · rename_i h
    have h' : 0 ≤ n := by push Not at h; exact_mod_cast h
    rw [abs_of_nonneg h']

theorem gridT_neg (s : Nat) (f : ℝ) : gridT s (-f) = -gridT s f := by unfold gridT; ring

/-- Interpolation backwards. -/
theorem lerp_neg (φ : Int → ℝ) (p : ℝ) : lerp (fun a => φ (-a)) p = lerp φ (-p) := by
  unfold lerp
  by_cases h : Int.fract p = 0
  · have hp : p = (⌊p⌋ : Int) := by have := Int.floor_add_fract p; rw [h] at this; linarith
    have h' : Int.fract (-p) = 0 := by rw [hp, ← Int.cast_neg, Int.fract_intCast]
    have hf : ⌊-p⌋ = -⌊p⌋ := by rw [hp, ← Int.cast_neg, Int.floor_intCast, Int.floor_intCast]
    rw [h, h', hf]; simp
  · have h' : Int.fract (-p) = 1 - Int.fract p := Int.fract_neg h
    have hf : ⌊-p⌋ = -⌊p⌋ - 1 := by
      have h1 := Int.floor_add_fract p
      have h2 := Int.floor_add_fract (-p)
      rw [h'] at h2
      have : ((⌊-p⌋ : Int) : ℝ) = ((-⌊p⌋ - 1 : Int) : ℝ) := by push_cast; linarith
      exact_mod_cast this
    rw [h', hf]
    have e1 : -⌊p⌋ - 1 + 1 = -⌊p⌋ := by ring
    have e2 : -(⌊p⌋ + 1) = -⌊p⌋ - 1 := by ring
    simp only [e1, e2]; ring

theorem lerp_sum {α : Type} (s : Finset α) (φ : α → Int → ℝ) (y : α → ℝ) (p : ℝ) : ∑ a ∈ s, lerp (φ a) p * y a = lerp (fun n => ∑ a ∈ s, φ a n * y a) p := by
  unfold lerp
  rw [Finset.mul_sum, Finset.mul_sum, ← Finset.sum_add_distrib]
  exact Finset.sum_congr rfl fun a _ => by ring

theorem lerp_congr {φ ψ : Int → ℝ} (h : ∀ a, φ a = ψ a) (p : ℝ) : lerp φ p = lerp ψ p := by rw [show φ = ψ from funext h]

theorem linTrans_adj (hS : S.Pos) (f : Fin 3 → ℝ) (x y : Field) :
    ∑ j ∈ Finset.range (nr S), linTrans S f x j * y j = ∑ j ∈ Finset.range (nr S), x j * linTrans S (fun k => -f k) y j := by
  rw [Finset.sum_congr rfl fun j hj => by rw [linTrans_eq S hS f x j (Finset.mem_range.1 hj)]]
  rw [Finset.sum_congr (s₁ := Finset.range (nr S)) (f := fun j => x j * linTrans S (fun k => -f k) y j) rfl fun j hj => by
    rw [linTrans_eq S hS (fun k => -f k) y j (Finset.mem_range.1 hj), mul_comm]]
  simp only [lerp_sum, gridT_neg, ← lerp_neg]
  refine lerp_congr (fun a => lerp_congr (fun b => lerp_congr (fun c => ?_) _) _) _
  rw [shift_adj S hS]
  exact Finset.sum_congr rfl fun j _ => mul_comm _ _

theorem constTrans_adj (hS : S.Pos) (f : Fin 3 → ℝ) (x y : Field) :
    ∑ j ∈ Finset.range (nr S), constTrans S f x j * y j = ∑ j ∈ Finset.range (nr S), x j * constTrans S (fun k => -f k) y j := by
  rw [Finset.sum_congr rfl fun j hj => by rw [constTrans_eq S hS f x j (Finset.mem_range.1 hj)]]
  rw [Finset.sum_congr (s₁ := Finset.range (nr S)) (f := fun j => x j * constTrans S (fun k => -f k) y j) rfl fun j hj => by
    rw [constTrans_eq S hS (fun k => -f k) y j (Finset.mem_range.1 hj)]]
  rw [shift_adj S hS]
  simp only [gridT_neg, roundSym_neg]

/-! ### Fourier translation -/

/-- The phase. -/
def phase (f : Fin 3 → ℝ) (i : Nat) : ℂ :=
  Complex.exp (-((hStart S i).x * (2 * Real.pi * f 0) + (hStart S i).y * (2 * Real.pi * f 1) + (hStart S i).z * (2 * Real.pi * f 2) : ℝ) * Complex.I)

theorem phase_conj (f : Fin 3 → ℝ) (i : Nat) : conj (phase S f i) = phase S (fun k => -f k) i := by
  unfold phase
  rw [← Complex.exp_conj]
  congr 1
  simp only [map_mul, map_neg, Complex.conj_ofReal, Complex.conj_I]
  push_cast; ring

theorem fourTrans_eq (f : Fin 3 → ℝ) (x : Field) : fourTrans S f x = fftI S (fun i => fftJ S x i * phase S f i.toNat) := rfl

theorem fourTrans_adj (g : Grid) (f : Fin 3 → ℝ) (x y : Field) :
    ∑ j ∈ Finset.range (nr g.S), fourTrans g.S f x j * y j = ∑ j ∈ Finset.range (nr g.S), x j * fourTrans g.S (fun k => -f k) y j := by
  rw [Finset.sum_congr rfl fun j _ => mul_comm _ _]
  simp only [fourTrans_eq]
  rw [adj g y, adj g x]
  unfold innerG
  refine Finset.sum_congr rfl fun i _ => ?_
  congr 1
  simp only [fftJ, Int.toNat_natCast, ← phase_conj]
  rw [← Complex.conj_re]
  simp only [map_mul, Complex.conj_conj, Complex.conj_ofReal]
  congr 1; ring

theorem fourTrans_adj' (S : Size) (f : Fin 3 → ℝ) (x y : Field) :
    ∑ j ∈ Finset.range (nr S), fourTrans S f x j * y j = ∑ j ∈ Finset.range (nr S), x j * fourTrans S (fun k => -f k) y j :=
  fourTrans_adj ⟨S, fun _ _ => 0, 0, 0⟩ f x y

theorem fftI_congr' (S : Size) {X Y : Arr} (h : ∀ i < nG S, X i = Y i) (j : Nat) : fftI S X j = fftI S Y j := by
  unfold fftI
  exact Finset.sum_congr rfl fun i hi => by rw [h i (Finset.mem_range.1 hi)]

/-- A field whose transform is that of the given one with phases. -/
theorem fourTrans_of (hS : S.Pos) (f : Fin 3 → ℝ) (x y : Field) (h : ∀ i < nG S, fftJ S y i = fftJ S x i * phase S f i) (j : Nat) (hj : j < nr S) :
    fourTrans S f x j = y j := by
  rw [← fftI_fftJ S hS y j hj, fourTrans_eq]
  exact fftI_congr' S (fun i hi => by rw [h i hi]; simp) j

theorem ph_mod (s : Nat) (hs : 0 < s) (a r : Int) : ph s a (r % s) = ph s a r := by
  conv_rhs => rw [← Int.emod_add_mul_ediv r s]
  rw [ph_add, ph_dvd s hs a _ (Dvd.intro _ rfl), mul_one]

theorem phase_grid (n : IV) (i : Nat) :
    phase S ![(n.x : ℝ) / S.s0, (n.y : ℝ) / S.s1, (n.z : ℝ) / S.s2] i = ph S.s0 (hStart S i).x (-n.x) * ph S.s1 (hStart S i).y (-n.y) * ph S.s2 (hStart S i).z (-n.z) := by
  unfold ph phase
  rw [← Complex.exp_add, ← Complex.exp_add]
  congr 1
  simp only [Matrix.cons_val_zero, Matrix.cons_val_one, Matrix.cons_val]
  push_cast; ring

theorem chi_hop (hS : S.Pos) (n : IV) (i j : Nat) :
    chi S i (hop S n j) = chi S i j * (ph S.s0 (hStart S i).x n.x * ph S.s1 (hStart S i).y n.y * ph S.s2 (hStart S i).z n.z) := by
  rw [chi_ph, chi_ph, rStart_hop S hS]
  simp only [ph_mod _ hS.1, ph_mod _ hS.2.1, ph_mod _ hS.2.2, ph_add]
  ring

/-- A shift of a field against complex coefficients. -/
theorem shift_sum_chi (hS : S.Pos) (n : IV) (x : Field) (u : Nat → ℂ) :
    ∑ j ∈ Finset.range (nr S), (shiftF S n x j : ℂ) * u (hop S n j) = ∑ j ∈ Finset.range (nr S), (x j : ℂ) * u j := by
  have hn : (⟨-(-n.x), -(-n.y), -(-n.z)⟩ : IV) = n := by simp
  refine Finset.sum_nbij' (hop S n) (hop S ⟨-n.x, -n.y, -n.z⟩) (fun j _ => Finset.mem_range.2 (hop_lt S hS n j)) (fun j _ => Finset.mem_range.2 (hop_lt S hS _ j))
    (fun j hj => hop_back S hS n j (Finset.mem_range.1 hj)) (fun j hj => ?_) fun j hj => ?_
  · have := hop_back S hS ⟨-n.x, -n.y, -n.z⟩ j (Finset.mem_range.1 hj)
    rwa [hn] at this
  · rw [shiftF_eq]

theorem ph_unit (s : Nat) (a r : Int) : ph s a r * conj (ph s a r) = 1 := by
  rw [ph_conj, ← ph_add, add_neg_cancel]; unfold ph; simp

theorem fourTrans_grid (hS : S.Pos) (n : IV) (x : Field) (j : Nat) (hj : j < nr S) :
    fourTrans S ![(n.x : ℝ) / S.s0, (n.y : ℝ) / S.s1, (n.z : ℝ) / S.s2] x j = shiftF S ⟨-n.x, -n.y, -n.z⟩ x j := by
  refine fourTrans_of S hS _ x (shiftF S ⟨-n.x, -n.y, -n.z⟩ x) (fun i hi => ?_) j hj
  rw [phase_grid S]
  simp only [fftJ, Idag, Int.toNat_natCast]
  rw [← shift_sum_chi S hS ⟨-n.x, -n.y, -n.z⟩ x fun j => conj (chi S i j), mul_assoc, Finset.sum_mul]
  congr 1
  refine Finset.sum_congr rfl fun k _ => ?_
  rw [chi_hop S hS]
  simp only [map_mul]
  have h0 := ph_unit S.s0 (hStart S i).x (-n.x)
  have h1 := ph_unit S.s1 (hStart S i).y (-n.y)
  have h2 := ph_unit S.s2 (hStart S i).z (-n.z)
  generalize ph S.s0 (hStart S i).x (-n.x) = a at *
  generalize ph S.s1 (hStart S i).y (-n.y) = b at *
  generalize ph S.s2 (hStart S i).z (-n.z) = c at *
  have h : conj a * conj b * conj c * (a * b * c) = 1 := by
    calc conj a * conj b * conj c * (a * b * c) = (a * conj a) * (b * conj b) * (c * conj c) := by ring
      _ = 1 := by rw [h0, h1, h2]; simp
  linear_combination (-(shiftF S ⟨-n.x, -n.y, -n.z⟩ x k : ℂ) * conj (chi S i k)) * h

/-! ### Plane waves -/

/-- The half-space elements that a plane wave consists of. -/
theorem Idag_wave (hS : S.Pos) (m : IV) (c : ℂ) (x : Field)
    (hx : ∀ j < nr S, (x j : ℂ) = c * (ph S.s0 m.x (rStart S j).x * ph S.s1 m.y (rStart S j).y * ph S.s2 m.z (rStart S j).z)
      + conj c * conj (ph S.s0 m.x (rStart S j).x * ph S.s1 m.y (rStart S j).y * ph S.s2 m.z (rStart S j).z)) (i : Nat) :
    Idag S x i = c * (if (S.s0 : Int) ∣ m.x - (hStart S i).x ∧ (S.s1 : Int) ∣ m.y - (hStart S i).y ∧ (S.s2 : Int) ∣ m.z - (hStart S i).z then (nr S : ℂ) else 0)
      + conj c * (if (S.s0 : Int) ∣ -m.x - (hStart S i).x ∧ (S.s1 : Int) ∣ -m.y - (hStart S i).y ∧ (S.s2 : Int) ∣ -m.z - (hStart S i).z then (nr S : ℂ) else 0) := by
  rw [← sum_real S hS, ← sum_real S hS, Finset.mul_sum, Finset.mul_sum, ← Finset.sum_add_distrib]
  unfold Idag
  refine Finset.sum_congr rfl fun j hj => ?_
  rw [hx j (Finset.mem_range.1 hj), Int.toNat_natCast, chi_ph]
  have e : ∀ (s : Nat) (a b r : Int), ph s (a - b) r = ph s a r * conj (ph s b r) := by
    intro s a b r
    rw [sub_eq_add_neg, ph_add', ph_conj]
    congr 1
    unfold ph; congr 1; push_cast; ring
  have e' : ∀ (s : Nat) (a b r : Int), ph s (-a - b) r = conj (ph s a r) * conj (ph s b r) := by
    intro s a b r
    rw [e, ph_conj s a]
    congr 1
    unfold ph; congr 1; push_cast; ring
  simp only [e', map_mul]
  simp only [e]
  ring

theorem hStart_centred (hS : S.Pos) (i : Nat) (hi : i < nG S) :
    Centred S.s0 (hStart S i).x ∧ Centred S.s1 (hStart S i).y ∧ Centred S.s2 (hStart S i).z := by
  obtain ⟨h0, h1, h2⟩ := hS
  have h3 : 0 < size2 S := by unfold size2; omega
  refine ⟨fold_centred ⟨by positivity, ?_⟩, fold_centred ⟨by positivity, ?_⟩, fold_centred ⟨by positivity, ?_⟩⟩
  · have : i / (size2 S * S.s1) < S.s0 := by
      rw [Nat.div_lt_iff_lt_mul (by positivity)]
      calc i < nG S := hi
        _ = _ := by unfold nG size2; ring
    exact_mod_cast this
  · exact_mod_cast Nat.mod_lt _ h1
  · have h4 := Nat.mod_lt i h3
    have h5 : size2 S ≤ S.s2 := by unfold size2; omega
    exact_mod_cast lt_of_lt_of_le h4 h5

theorem centred_dvd {s : Nat} {a b : Int} (ha : Centred s a) (hb : 2 * |b| < s) (h : (s : Int) ∣ b - a) : a = b := by
  unfold Centred at ha
  obtain ⟨k, hk⟩ := h
  have h1 := abs_lt.1 (show |b| < (s : Int) by have := abs_nonneg b; omega)
  have hb' : -(s : Int) < 2 * b ∧ 2 * b < s := by
    have := neg_abs_le b; have := le_abs_self b; constructor <;> omega
  have hs : (0 : Int) < s := by omega
  have hk1 : k < 1 := by
    by_contra hc
    push Not at hc
    have : (s : Int) * 1 ≤ s * k := mul_le_mul_of_nonneg_left hc hs.le
    omega
  have hk2 : -1 < k := by
    by_contra hc
    push Not at hc
    have : (s : Int) * k ≤ s * (-1) := mul_le_mul_of_nonneg_left hc hs.le
    omega
  have : k = 0 := by omega
  subst this
  omega

theorem fourTrans_wave (hS : S.Pos) (m : IV) (h0 : 2 * |m.x| < S.s0) (h1 : 2 * |m.y| < S.s1) (h2 : 2 * |m.z| < S.s2) (θ : ℝ) (f : Fin 3 → ℝ) (x : Field)
    (hx : ∀ j < nr S, x j = wave S m θ (rStart S j).x (rStart S j).y (rStart S j).z) (j : Nat) (hj : j < nr S) :
    fourTrans S f x j = wave S m θ ((rStart S j).x - S.s0 * f 0) ((rStart S j).y - S.s1 * f 1) ((rStart S j).z - S.s2 * f 2) := by
  obtain ⟨p0, p1, p2⟩ := hS
  have q0 : (S.s0 : ℝ) ≠ 0 := by exact_mod_cast p0.ne'
  have q1 : (S.s1 : ℝ) ≠ 0 := by exact_mod_cast p1.ne'
  have q2 : (S.s2 : ℝ) ≠ 0 := by exact_mod_cast p2.ne'
  have hS : S.Pos := ⟨p0, p1, p2⟩
  set θ' : ℝ := θ - 2 * Real.pi * (m.x * f 0 + m.y * f 1 + m.z * f 2) with hθ'
  have hw : ∀ p q r : ℝ, wave S m θ (p - S.s0 * f 0) (q - S.s1 * f 1) (r - S.s2 * f 2) = wave S m θ' p q r := by
    intro p q r
    unfold wave
    congr 1
    rw [hθ']; field_simp; ring
  have hc : ∀ (θ : ℝ) (v : IV), ((wave S m θ v.x v.y v.z : ℝ) : ℂ) = Complex.exp (θ * Complex.I) / 2 * (ph S.s0 m.x v.x * ph S.s1 m.y v.y * ph S.s2 m.z v.z)
      + conj (Complex.exp (θ * Complex.I) / 2) * conj (ph S.s0 m.x v.x * ph S.s1 m.y v.y * ph S.s2 m.z v.z) := by
    intro θ v
    have e : Complex.exp (θ * Complex.I) / 2 * (ph S.s0 m.x v.x * ph S.s1 m.y v.y * ph S.s2 m.z v.z)
        = Complex.exp ((2 * Real.pi * (m.x * v.x / S.s0 + m.y * v.y / S.s1 + m.z * v.z / S.s2) + θ : ℝ) * Complex.I) / 2 := by
      unfold ph
      rw [div_mul_eq_mul_div, ← Complex.exp_add, ← Complex.exp_add, ← Complex.exp_add]
      congr 2
      push_cast; ring
    rw [← map_mul, e]
    unfold wave
    generalize (2 * Real.pi * (m.x * v.x / S.s0 + m.y * v.y / S.s1 + m.z * v.z / S.s2) + θ : ℝ) = t
    rw [Complex.ofReal_cos, Complex.cos, map_div₀, ← Complex.exp_conj]
    simp only [map_mul, Complex.conj_ofReal, Complex.conj_I, map_ofNat]
    rw [show (t : ℂ) * -Complex.I = -(t : ℂ) * Complex.I by ring]
    ring
  rw [hw]
  refine fourTrans_of S hS f x (fun j => wave S m θ' (rStart S j).x (rStart S j).y (rStart S j).z) (fun i hi => ?_) j hj
  have hcen := hStart_centred S hS i hi
  simp only [fftJ]
  rw [mul_assoc]
  congr 1
  rw [Idag_wave S hS m (Complex.exp (θ' * Complex.I) / 2) _ (fun j _ => hc θ' (rStart S j)),
    Idag_wave S hS m (Complex.exp (θ * Complex.I) / 2) x (fun j hj => by rw [hx j hj]; exact hc θ (rStart S j))]
  rw [add_mul]
  have hph : ∀ σ : ℝ, (hStart S i).x = σ * m.x → (hStart S i).y = σ * m.y → (hStart S i).z = σ * m.z →
      phase S f i = Complex.exp (-(σ * (2 * Real.pi * (m.x * f 0 + m.y * f 1 + m.z * f 2)) : ℝ) * Complex.I) := by
    intro σ e0 e1 e2
    unfold phase
    rw [e0, e1, e2]
    congr 4; ring
  congr 1
  · split_ifs with h
    · have e0 := centred_dvd hcen.1 h0 h.1
      have e1 := centred_dvd hcen.2.1 h1 h.2.1
      have e2 := centred_dvd hcen.2.2 h2 h.2.2
      rw [hph 1 (by rw [e0]; ring) (by rw [e1]; ring) (by rw [e2]; ring)]
      have : Complex.exp (θ' * Complex.I) = Complex.exp (θ * Complex.I) * Complex.exp (-(1 * (2 * Real.pi * (m.x * f 0 + m.y * f 1 + m.z * f 2)) : ℝ) * Complex.I) := by
        rw [← Complex.exp_add]; congr 1; rw [hθ']; push_cast; ring
      rw [this]; ring
    · simp
  · split_ifs with h
    · have e0 := centred_dvd hcen.1 (by rwa [abs_neg]) h.1
      have e1 := centred_dvd hcen.2.1 (by rwa [abs_neg]) h.2.1
      have e2 := centred_dvd hcen.2.2 (by rwa [abs_neg]) h.2.2
      rw [hph (-1) (by rw [e0]; push_cast; ring) (by rw [e1]; push_cast; ring) (by rw [e2]; push_cast; ring)]
      have : conj (Complex.exp (θ' * Complex.I)) = conj (Complex.exp (θ * Complex.I)) * Complex.exp (-(-1 * (2 * Real.pi * (m.x * f 0 + m.y * f 1 + m.z * f 2)) : ℝ) * Complex.I) := by
        rw [← Complex.exp_conj, ← Complex.exp_conj, ← Complex.exp_add]; congr 1
        simp only [map_mul, Complex.conj_ofReal, Complex.conj_I]
        rw [hθ']; push_cast; ring
      simp only [map_div₀]
      rw [this]; ring
    · simp

/-! ### Uniform fields, bounds, shifts by grid vectors -/

theorem lerp_const (c p : ℝ) : lerp (fun _ => c) p = c := by unfold lerp; ring

theorem lerp_add (φ : Int → ℝ) (v : Int) (p : ℝ) : lerp (fun a => φ (v + a)) p = lerp φ (v + p) := by
  unfold lerp
  rw [Int.floor_intCast_add, Int.fract_intCast_add, add_assoc]

theorem lerp_int (φ : Int → ℝ) (n : Int) : lerp φ n = φ n := by unfold lerp; simp

theorem lerp_le {φ : Int → ℝ} {c : ℝ} (h : ∀ a, φ a ≤ c) (p : ℝ) : lerp φ p ≤ c := by
  unfold lerp
  have h1 := Int.fract_nonneg p
  have h2 := (Int.fract_lt_one p).le
  nlinarith [mul_le_mul_of_nonneg_left (h ⌊p⌋) (sub_nonneg.2 h2), mul_le_mul_of_nonneg_left (h (⌊p⌋ + 1)) h1]

theorem le_lerp {φ : Int → ℝ} {c : ℝ} (h : ∀ a, c ≤ φ a) (p : ℝ) : c ≤ lerp φ p := by
  unfold lerp
  have h1 := Int.fract_nonneg p
  have h2 := (Int.fract_lt_one p).le
  nlinarith [mul_le_mul_of_nonneg_left (h ⌊p⌋) (sub_nonneg.2 h2), mul_le_mul_of_nonneg_left (h (⌊p⌋ + 1)) h1]

theorem linTrans_trilinear (hS : S.Pos) (f : Fin 3 → ℝ) (x : Field) (j : Nat) (hj : j < nr S) :
    linTrans S f x j = trilinear S x ((rStart S j).x + gridT S.s0 (f 0)) ((rStart S j).y + gridT S.s1 (f 1)) ((rStart S j).z + gridT S.s2 (f 2)) := by
  rw [linTrans_eq S hS f x j hj]
  unfold trilinear
  rw [← lerp_add]
  refine lerp_congr (fun a => ?_) _
  rw [← lerp_add]
  refine lerp_congr (fun b => ?_) _
  rw [← lerp_add]
  rfl

theorem gridT_grid (s : Nat) (hs : 0 < s) (n : Int) : gridT s ((n : ℝ) / s) = ((-n : Int) : ℝ) := by
  have : (s : ℝ) ≠ 0 := by exact_mod_cast hs.ne'
  unfold gridT; push_cast; field_simp

theorem run_grid (o : TransOp) (hS : S.Pos) (n : IV) (x : Field) (j : Nat) (hj : j < nr S) :
    o.run S ![(n.x : ℝ) / S.s0, (n.y : ℝ) / S.s1, (n.z : ℝ) / S.s2] x j = shiftF S ⟨-n.x, -n.y, -n.z⟩ x j := by
  cases o with
  | constant =>
    refine (constTrans_eq S hS _ x j hj).trans ?_
    simp only [Matrix.cons_val_zero, Matrix.cons_val_one, Matrix.cons_val, gridT_grid _ hS.1, gridT_grid _ hS.2.1, gridT_grid _ hS.2.2, roundSym_int]
  | linear =>
    refine (linTrans_eq S hS _ x j hj).trans ?_
    simp only [Matrix.cons_val_zero, Matrix.cons_val_one, Matrix.cons_val, gridT_grid _ hS.1, gridT_grid _ hS.2.1, gridT_grid _ hS.2.2, lerp_int]
  | fourier => exact fourTrans_grid S hS n x j hj

theorem run_adj (o : TransOp) (hS : S.Pos) (f : Fin 3 → ℝ) (x y : Field) :
    ∑ j ∈ Finset.range (nr S), o.run S f x j * y j = ∑ j ∈ Finset.range (nr S), x j * o.run S (fun k => -f k) y j := by
  cases o with
  | constant => exact constTrans_adj S hS f x y
  | linear => exact linTrans_adj S hS f x y
  | fourier => exact fourTrans_adj' S f x y

theorem run_uniform (o : TransOp) (hS : S.Pos) (f : Fin 3 → ℝ) (c : ℝ) (x : Field) (hx : ∀ j < nr S, x j = c) (j : Nat) (hj : j < nr S) : o.run S f x j = c := by
  have hs : ∀ n, shiftF S n x j = c := fun n => hx _ (hop_lt S hS n j)
  cases o with
  | constant => exact (constTrans_eq S hS f x j hj).trans (hs _)
  | linear =>
    refine (linTrans_eq S hS f x j hj).trans ?_
    simp only [hs, lerp_const]
  | fourier =>
    have h := fourTrans_wave S hS ⟨0, 0, 0⟩ (by simpa using hS.1) (by simpa using hS.2.1) (by simpa using hS.2.2) 0 f (fun _ => 1) (fun j _ => by simp [wave]) j hj
    have h1 : fourTrans S f (fun _ => 1) j = 1 := by rw [h]; simp [wave]
    have h2 : fourTrans S f x j = c * fourTrans S f (fun _ => 1) j := by
      unfold fourTrans fftI
      rw [Finset.mul_sum]
      refine Finset.sum_congr rfl fun i _ => ?_
      have h3 : Idag S x i = c * Idag S (fun _ => 1) i := by
        unfold Idag
        rw [Finset.mul_sum]
        refine Finset.sum_congr rfl fun k hk => ?_
        rw [hx k (Finset.mem_range.1 hk)]; push_cast; ring
      have h4 : fftJ S x i = c * fftJ S (fun _ => 1) i := by
        unfold fftJ
        rw [h3]; ring
      simp only [h4]
      rw [mul_assoc, mul_assoc, Complex.re_ofReal_mul, ← mul_assoc (fftJ S _ _)]
      ring
    exact h2.trans (by rw [h1, mul_one])

end
end Jdftx.Fluid
