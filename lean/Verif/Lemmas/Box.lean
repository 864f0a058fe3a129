import Verif.Spec.Box
import Mathlib.Tactic.Ring
import Mathlib.Tactic.Linarith
import Mathlib.Algebra.Ring.Int.Defs
import Mathlib.Algebra.Order.Ring.Int

namespace Jdftx.Box

/-! ### One dimension -/

theorem wrap_range {s : Nat} {g : Int} (h : Centred s g) : 0 ≤ wrap1 s g ∧ wrap1 s g < s := by
  unfold Centred at h; unfold wrap1; split <;> omega

theorem fold_centred {s : Nat} {r : Int} (h : 0 ≤ r ∧ r < s) : Centred s (fold1 s r) := by
  unfold Centred fold1; split <;> omega

theorem wrap_fold {s : Nat} {r : Int} (h : 0 ≤ r ∧ r < s) : wrap1 s (fold1 s r) = r := by
  unfold wrap1 fold1; split <;> split <;> omega

theorem fold_wrap {s : Nat} {g : Int} (h : Centred s g) : fold1 s (wrap1 s g) = g := by
  unfold Centred at h; unfold wrap1 fold1; split <;> split <;> omega

theorem fold_next {s : Nat} {r : Int} (h : 0 ≤ r ∧ r < s) :
    fold1 s (fold1 s r + 1) = if r + 1 = s then 0 else fold1 s (r + 1) := by
  unfold fold1; split <;> split <;> split <;> (try split) <;> omega

theorem fold_ne_zero {s : Nat} {r : Int} (h : 0 < r ∧ r < s) : fold1 s r ≠ 0 := by
  unfold fold1; split <;> omega

theorem fold_low {s : Nat} {r : Int} (h : r ≤ (s : Int) / 2) : fold1 s r = r := by
  unfold fold1; split <;> omega

/-! ### Mixed radix -/

theorem idx_divmod {c z q : Int} (hz : 0 ≤ z ∧ z < c) : (z + c * q) / c = q ∧ (z + c * q) % c = z := by
  have hc : c ≠ 0 := by omega
  refine ⟨?_, ?_⟩
  · rw [Int.add_mul_ediv_left _ _ hc, Int.ediv_eq_zero_of_lt hz.1 hz.2, zero_add]
  · rw [Int.add_mul_emod_self_left, Int.emod_eq_of_lt hz.1 hz.2]

theorem idx_inj {b c x y z x' y' z' : Int} (hz : 0 ≤ z ∧ z < c) (hz' : 0 ≤ z' ∧ z' < c) (hy : 0 ≤ y ∧ y < b)
    (hy' : 0 ≤ y' ∧ y' < b) (h : z + c * (y + b * x) = z' + c * (y' + b * x')) : x = x' ∧ y = y' ∧ z = z' := by
  have h1 := idx_divmod (q := y + b * x) hz
  have h2 := idx_divmod (q := y' + b * x') hz'
  rw [h] at h1
  have hq : y + b * x = y' + b * x' := h1.1.symm.trans h2.1
  have h3 := idx_divmod (q := x) hy
  have h4 := idx_divmod (q := x') hy'
  rw [hq] at h3
  exact ⟨h3.1.symm.trans h4.1, h3.2.symm.trans h4.2, h1.2.symm.trans h2.2⟩

theorem idx_range {a b c x y z : Int} (hz : 0 ≤ z ∧ z < c) (hy : 0 ≤ y ∧ y < b) (hx : 0 ≤ x ∧ x < a) :
    0 ≤ z + c * (y + b * x) ∧ z + c * (y + b * x) < a * b * c := by
  have h1 : y + b * x + 1 ≤ a * b := by
    have : b * (x + 1) ≤ b * a := mul_le_mul_of_nonneg_left (by omega) (by omega)
    linarith [mul_comm a b, mul_add b x 1, mul_one b]
  have h0 : 0 ≤ b * x := mul_nonneg (by omega) (by omega)
  have h2 : c * (y + b * x + 1) ≤ c * (a * b) := mul_le_mul_of_nonneg_left h1 (by omega)
  have h3 : 0 ≤ c * (y + b * x) := mul_nonneg (by omega) (by omega)
  have e1 : c * (y + b * x + 1) = c * (y + b * x) + c := by ring
  have e2 : c * (a * b) = a * b * c := by ring
  constructor <;> omega

theorem idx_x_lt {a b c x y z : Int} (hz : 0 ≤ z ∧ z < c) (hy : 0 ≤ y ∧ y < b)
    (h : z + c * (y + b * x) < a * b * c) : x < a := by
  by_contra hx
  have hb : b * a ≤ b * x := mul_le_mul_of_nonneg_left (by omega) (by omega)
  have h1 : c * (b * a) ≤ c * (y + b * x) := mul_le_mul_of_nonneg_left (by omega) (by omega)
  have e2 : c * (b * a) = a * b * c := by ring
  omega

/-- Decoding an index into coordinates. -/
theorem idx_decode (b c i : Nat) :
    ((i % c : Nat) : Int) + c * (((i / c) % b : Nat) + b * ((i / (c * b) : Nat) : Int)) = i := by
  have h1 : i % c + c * (i / c) = i := Nat.mod_add_div i c
  have h2 : (i / c) % b + b * (i / c / b) = i / c := Nat.mod_add_div _ _
  rw [Nat.div_div_eq_div_mul] at h2
  rw [← h2] at h1
  exact_mod_cast h1

/-! ### Three dimensions -/

theorem rStart_index (S : Size) (i : Nat) : fullRindex S (rStart S i) = i := idx_decode S.s1 S.s2 i

theorem rStart_yz (S : Size) (hS : S.Pos) (i : Nat) :
    (0 ≤ (rStart S i).y ∧ (rStart S i).y < S.s1) ∧ (0 ≤ (rStart S i).z ∧ (rStart S i).z < S.s2) := by
  have h1 := Nat.mod_lt (i / S.s2) hS.2.1
  have h2 := Nat.mod_lt i hS.2.2
  refine ⟨⟨?_, ?_⟩, ?_, ?_⟩ <;> simp only [rStart] <;> omega

theorem nr_cast (S : Size) : ((nr S : Nat) : Int) = S.s0 * S.s1 * S.s2 := by unfold nr; push_cast; rfl

theorem nG_cast (S : Size) : ((nG S : Nat) : Int) = S.s0 * S.s1 * (size2 S : Nat) := by
  unfold nG size2; push_cast; rfl

theorem rStart_valid (S : Size) (hS : S.Pos) (i : Nat) (hi : i < nr S) : ValidR S (rStart S i) := by
  have h := rStart_yz S hS i
  refine ⟨⟨?_, ?_⟩, h.1, h.2⟩
  · exact Int.natCast_nonneg _
  · have := rStart_index S i
    have hn := nr_cast S
    apply idx_x_lt (b := S.s1) h.2 h.1
    unfold fullRindex at this; rw [this, ← hn]; exact_mod_cast hi

theorem fullRindex_range (S : Size) (v : IV) (hv : ValidR S v) : 0 ≤ fullRindex S v ∧ fullRindex S v < nr S := by
  rw [nr_cast]; exact idx_range hv.2.2 hv.2.1 hv.1

theorem fullRindex_inj (S : Size) (v w : IV) (hv : ValidR S v) (hw : ValidR S w) (h : fullRindex S v = fullRindex S w) :
    v = w := by
  have := idx_inj hv.2.2 hw.2.2 hv.2.1 hw.2.1 h
  cases v; cases w; simp only [IV.mk.injEq]; exact this

theorem wrap_valid (S : Size) (v : IV) (hv : ValidG S v) : ValidR S (wrapGcoords S v) :=
  ⟨wrap_range hv.1, wrap_range hv.2.1, wrap_range hv.2.2⟩

/-- Componentwise folding. -/
def foldV (S : Size) (v : IV) : IV := ⟨fold1 S.s0 v.x, fold1 S.s1 v.y, fold1 S.s2 v.z⟩

theorem foldV_valid (S : Size) (v : IV) (hv : ValidR S v) : ValidG S (foldV S v) :=
  ⟨fold_centred hv.1, fold_centred hv.2.1, fold_centred hv.2.2⟩

theorem foldV_wrap (S : Size) (v : IV) (hv : ValidG S v) : foldV S (wrapGcoords S v) = v := by
  cases v; simp only [foldV, wrapGcoords, IV.mk.injEq]
  exact ⟨fold_wrap hv.1, fold_wrap hv.2.1, fold_wrap hv.2.2⟩

theorem wrap_foldV (S : Size) (v : IV) (hv : ValidR S v) : wrapGcoords S (foldV S v) = v := by
  cases v; simp only [foldV, wrapGcoords, IV.mk.injEq]
  exact ⟨wrap_fold hv.1, wrap_fold hv.2.1, wrap_fold hv.2.2⟩

theorem gStart_eq (S : Size) (i : Nat) : gStart S i = foldV S (rStart S i) := rfl

theorem rNext_index (S : Size) (v : IV) : fullRindex S (rNext S v) = fullRindex S v + 1 := by
  unfold rNext fullRindex
  split
  · next h =>
    split
    · next h' =>
      have e1 : v.z = S.s2 - 1 := by omega
      have e2 : v.y = S.s1 - 1 := by omega
      simp only [e1, e2]; ring
    · have e1 : v.z = S.s2 - 1 := by omega
      simp only [e1]; ring
  · ring

theorem rNext_yz (S : Size) (hS : S.Pos) (v : IV) (hy : 0 ≤ v.y ∧ v.y < S.s1) (hz : 0 ≤ v.z ∧ v.z < S.s2) :
    (0 ≤ (rNext S v).y ∧ (rNext S v).y < S.s1) ∧ (0 ≤ (rNext S v).z ∧ (rNext S v).z < S.s2) := by
  obtain ⟨_, h1, h2⟩ := hS
  unfold rNext
  split
  · split <;> simp only <;> omega
  · simp only; omega

theorem rNext_start (S : Size) (hS : S.Pos) (i : Nat) : rNext S (rStart S i) = rStart S (i+1) := by
  have h0 := rStart_yz S hS i
  have h1 := rNext_yz S hS _ h0.1 h0.2
  have h2 := rStart_yz S hS (i+1)
  have e : fullRindex S (rNext S (rStart S i)) = fullRindex S (rStart S (i+1)) := by
    rw [rNext_index, rStart_index, rStart_index]; push_cast; rfl
  have := idx_inj h1.2 h2.2 h1.1 h2.1 e
  generalize rNext S (rStart S i) = a at *
  generalize rStart S (i+1) = b at *
  cases a; cases b; simp only [IV.mk.injEq]; exact this

theorem gNext_fold (S : Size) (v : IV) (hv : ValidR S v) : gNext S (foldV S v) = foldV S (rNext S v) := by
  obtain ⟨hx, hy, hz⟩ := hv
  unfold gNext foldV rNext
  simp only [fold_next hx, fold_next hy, fold_next hz]
  by_cases h : v.z + 1 = S.s2
  · have hz0 : fold1 S.s2 0 = 0 := fold_low (by omega)
    have hy0 : fold1 S.s1 0 = 0 := fold_low (by omega)
    simp only [h, ↓reduceIte]
    by_cases h' : v.y + 1 = S.s1
    · simp only [h', ↓reduceIte, hz0, hy0, IV.mk.injEq, and_self, and_true]
      split
      · next h'' => rw [h'']; unfold fold1; split <;> omega
      · rfl
    · have hne : fold1 S.s1 (v.y + 1) ≠ 0 := fold_ne_zero (by omega)
      simp only [h', ↓reduceIte, hne, hz0]
  · have hne : fold1 S.s2 (v.z + 1) ≠ 0 := fold_ne_zero (by omega)
    simp only [h, ↓reduceIte, hne]

theorem gNext_start (S : Size) (hS : S.Pos) (i : Nat) (hi : i < nr S) : gNext S (gStart S i) = gStart S (i+1) := by
  rw [gStart_eq, gNext_fold S _ (rStart_valid S hS i hi), rNext_start S hS, gStart_eq]

/-- The half grid is the real-type grid with last size `S.s2/2+1`, with folding of the first two coordinates. -/
def halfSize (S : Size) : Size := ⟨S.s0, S.s1, size2 S⟩

theorem halfSize_pos (S : Size) (hS : S.Pos) : (halfSize S).Pos :=
  ⟨hS.1, hS.2.1, by simp [halfSize, size2]⟩

theorem nr_halfSize (S : Size) : nr (halfSize S) = nG S := rfl

def foldH (S : Size) (v : IV) : IV := ⟨fold1 S.s0 v.x, fold1 S.s1 v.y, v.z⟩

theorem hStart_eq (S : Size) (i : Nat) : hStart S i = foldH S (rStart (halfSize S) i) := by
  have : fold1 S.s2 (i % size2 S : Nat) = (i % size2 S : Nat) := by
    apply fold_low
    have : i % size2 S < size2 S := Nat.mod_lt _ (by simp [size2])
    unfold size2 at *; omega
  simp only [hStart, foldH, rStart, halfSize, this]

theorem hNext_fold (S : Size) (v : IV) (hv : ValidR (halfSize S) v) :
    hNext S (foldH S v) = foldH S (rNext (halfSize S) v) := by
  obtain ⟨hx, hy, hz⟩ := hv
  simp only [halfSize] at hx hy hz
  unfold hNext foldH rNext
  simp only [fold_next hx, fold_next hy, halfSize]
  by_cases h : v.z + 1 = size2 S
  · have hy0 : fold1 S.s1 0 = 0 := fold_low (by omega)
    simp only [h, ↓reduceIte]
    by_cases h' : v.y + 1 = S.s1
    · simp only [h', ↓reduceIte, hy0, IV.mk.injEq, and_true]
      split
      · next h'' => rw [h'']; unfold fold1; split <;> omega
      · rfl
    · have hne : fold1 S.s1 (v.y + 1) ≠ 0 := fold_ne_zero (by omega)
      simp only [h', ↓reduceIte, hne]
  · simp only [h, ↓reduceIte]

theorem hNext_start (S : Size) (hS : S.Pos) (i : Nat) (hi : i < nG S) : hNext S (hStart S i) = hStart S (i+1) := by
  rw [hStart_eq, hNext_fold S _ (rStart_valid _ (halfSize_pos S hS) i (by rwa [nr_halfSize])),
    rNext_start _ (halfSize_pos S hS), hStart_eq]

/-- Valid half-grid coordinates are exactly the folded coordinates of the box with last size `S.s2/2+1`. -/
theorem foldH_valid (S : Size) (hS : S.Pos) (v : IV) (hv : ValidR (halfSize S) v) : ValidH S (foldH S v) := by
  obtain ⟨hx, hy, hz⟩ := hv
  simp only [halfSize, size2] at hx hy hz
  refine ⟨⟨fold_centred hx, fold_centred hy, ?_⟩, hz.1⟩
  have := hS.2.2; simp only [foldH, Centred]; omega

theorem wrapH_valid (S : Size) (v : IV) (hv : ValidH S v) : ValidR (halfSize S) (wrapGcoords S v) := by
  obtain ⟨⟨hx, hy, hz⟩, h0⟩ := hv
  refine ⟨wrap_range hx, wrap_range hy, ?_⟩
  unfold Centred at hz
  simp only [halfSize, size2, wrapGcoords, wrap1]; split <;> omega

theorem foldH_wrap (S : Size) (v : IV) (hv : ValidH S v) : foldH S (wrapGcoords S v) = v := by
  obtain ⟨⟨hx, hy, hz⟩, h0⟩ := hv
  cases v; simp only [foldH, wrapGcoords, IV.mk.injEq]
  refine ⟨fold_wrap hx, fold_wrap hy, ?_⟩
  simp only at h0; simp only [wrap1]; split <;> omega

theorem wrap_foldH (S : Size) (v : IV) (hv : ValidR (halfSize S) v) : wrapGcoords S (foldH S v) = v := by
  obtain ⟨hx, hy, hz⟩ := hv
  cases v; simp only [foldH, wrapGcoords, IV.mk.injEq]
  refine ⟨wrap_fold hx, wrap_fold hy, ?_⟩
  simp only at hz; simp only [wrap1]; split <;> omega

theorem halfGindex_eq (S : Size) (v : IV) : halfGindex S v = fullRindex (halfSize S) (wrapGcoords S v) := by
  unfold halfGindex fullRindex halfSize size2; push_cast; rfl

/-! ### Loops -/

theorem rLoopFrom_eq (S : Size) (hS : S.Pos) (b : Nat) : ∀ (fuel i : Nat), b ≤ i + fuel →
    rLoopFrom S b fuel i (rStart S i) = (List.range' i (b - i)).map fun j => (j, rStart S j) := by
  intro fuel
  induction fuel with
  | zero => intro i h; simp [rLoopFrom, show b - i = 0 by omega]
  | succ n ih =>
    intro i h
    unfold rLoopFrom
    by_cases hi : i < b
    · rw [if_pos hi]
      have e : b - i = (b - (i+1)) + 1 := by omega
      rw [e, List.range'_succ, List.map_cons]
      congr 1
      split
      · next h' => simp [show b - (i+1) = 0 by omega]
      · rw [rNext_start S hS, ih (i+1) (by omega)]
    · rw [if_neg hi]; simp [show b - i = 0 by omega]

theorem hLoopFrom_eq (S : Size) (hS : S.Pos) (b : Nat) (hb : b ≤ nG S) : ∀ (fuel i : Nat), b ≤ i + fuel →
    hLoopFrom S b fuel i (hStart S i) = (List.range' i (b - i)).map fun j => (j, hStart S j) := by
  intro fuel
  induction fuel with
  | zero => intro i h; simp [hLoopFrom, show b - i = 0 by omega]
  | succ n ih =>
    intro i h
    unfold hLoopFrom
    by_cases hi : i < b
    · rw [if_pos hi]
      have e : b - i = (b - (i+1)) + 1 := by omega
      rw [e, List.range'_succ, List.map_cons]
      congr 1
      split
      · next h' => simp [show b - (i+1) = 0 by omega]
      · rw [hNext_start S hS i (by omega), ih (i+1) (by omega)]
    · rw [if_neg hi]; simp [show b - i = 0 by omega]

theorem gLoopFrom_eq (S : Size) (hS : S.Pos) (b : Nat) (hb : b ≤ nr S) : ∀ (fuel i : Nat), i < b → b ≤ i + fuel →
    gLoopFrom S b fuel i (gStart S i) = .ok ((List.range' i (b - i)).map fun j => (j, gStart S j)) := by
  intro fuel
  induction fuel with
  | zero => intro i h1 h; omega
  | succ n ih =>
    intro i h1 h
    unfold gLoopFrom
    have e : b - i = (b - (i+1)) + 1 := by omega
    rw [e, List.range'_succ, List.map_cons]
    split
    · next h' => simp [show b - (i+1) = 0 by omega]
    · rw [gNext_start S hS i (by omega), ih (i+1) (by omega) (by omega)]

theorem gLoopFrom_past (S : Size) (b : Nat) : ∀ (fuel i : Nat) (v : IV), b ≤ i → gLoopFrom S b fuel i v = .error .ub := by
  intro fuel
  induction fuel with
  | zero => intro i v _; rfl
  | succ n ih =>
    intro i v h
    unfold gLoopFrom
    rw [if_neg (by omega), ih (i+1) _ (by omega)]

end Jdftx.Box
