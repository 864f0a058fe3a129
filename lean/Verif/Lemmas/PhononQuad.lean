import Verif.Lemmas.PhononFree

/-!
# Lemmas for C98: points of the quadrature, oscillator
-/
namespace Jdftx.Phonon
noncomputable section
open M3 Matrix

theorem gaussX_range (p : Fin 4) : 0 ≤ gaussX p ∧ gaussX p < 1 := by
  fin_cases p <;> norm_num [gaussX]

theorem gaussW_pos (p : Fin 4) : 0 < gaussW p := by
  fin_cases p <;> norm_num [gaussW]

theorem absc_range {h : ℚ} (hh : 0 < h) (c : ℚ) (i : Int) : |absc true h c i - c| < h := by
  obtain ⟨h0, h1⟩ := gaussX_range (gaussPos i)
  unfold absc
  rw [if_pos rfl, add_sub_cancel_left, abs_lt]
  have : h * gaussX (gaussPos i) < h := by nlinarith
  have : 0 ≤ h * gaussX (gaussPos i) := by positivity
  split <;> constructor <;> linarith

theorem absc_flat (h c : ℚ) (i : Int) : absc false h c i = c := by simp [absc]

theorem wt_pos (d : Bool) {h : ℚ} (hh : 0 < h) (i : Int) : 0 < wt d h i := by
  unfold wt
  have := gaussW_pos (gaussPos i)
  split
  · positivity
  · norm_num

/-- What one coordinate satisfies. -/
def CoordOK (d : Bool) (s c x : ℚ) : Prop := if d then |x - c| < 0.5 * s else x = c

theorem absc_ok (d : Bool) {s : ℚ} (hs : 0 < s) (c : ℚ) (i : Int) : CoordOK d s c (absc d (0.5 * s) c i) := by
  unfold CoordOK
  cases d
  · exact absc_flat _ _ _
  · exact absc_range (by linarith) _ _

theorem box_ok (dim : Fin 3 → Bool) {s : ℚ} (hs : 0 < s) (cx cy cz : ℚ) {p : QPt} (hp : p ∈ box dim s cx cy cz) :
    CoordOK (dim 0) s cx p.x ∧ CoordOK (dim 1) s cy p.y ∧ CoordOK (dim 2) s cz p.z ∧ 0 < p.w := by
  unfold box at hp
  simp only [List.mem_flatMap, List.mem_map] at hp
  obtain ⟨i, _, j, _, k, _, rfl⟩ := hp
  have hh : 0 < 0.5 * s := by linarith
  exact ⟨absc_ok _ hs _ _, absc_ok _ hs _ _, absc_ok _ hs _ _,
    mul_pos (mul_pos (wt_pos _ hh _) (wt_pos _ hh _)) (wt_pos _ hh _)⟩

theorem coord_scale {d : Bool} {s x : ℚ} {i : Int} (hs : 0 < s) (hi : i ∈ loop1 d) (h : CoordOK d (s / 3) (s / 3 * i) x) :
    |x| < 0.5 * s ∧ (d = false → x = 0) ∧ (i ≠ 0 → x ≠ 0) := by
  unfold loop1 at hi
  unfold CoordOK at h
  cases d
  · simp only [Bool.false_eq_true, if_false, List.mem_singleton] at hi h
    subst hi
    simp only [Int.cast_zero, mul_zero] at h
    subst h
    refine ⟨by simp; linarith, fun _ => rfl, fun h => absurd rfl h⟩
  · simp only [if_true, List.mem_cons, List.not_mem_nil, or_false] at hi h
    rw [abs_lt] at h
    refine ⟨?_, fun h => absurd h (by simp), ?_⟩
    · rw [abs_lt]
      rcases hi with rfl | rfl | rfl <;> push_cast at h <;> constructor <;> linarith [h.1, h.2]
    · intro h0 hx
      rcases hi with rfl | rfl | rfl
      · push_cast at h; linarith [h.1, h.2]
      · exact h0 rfl
      · push_cast at h; linarith [h.1, h.2]

theorem scale_ok (dim : Fin 3 → Bool) {s : ℚ} (hs : 0 < s) {p : QPt} (hp : p ∈ scaleBoxes dim s) :
    (|p.x| < 0.5 * s ∧ |p.y| < 0.5 * s ∧ |p.z| < 0.5 * s) ∧ (dim 0 = false → p.x = 0) ∧ (dim 1 = false → p.y = 0) ∧ (dim 2 = false → p.z = 0) ∧
    (p.x ≠ 0 ∨ p.y ≠ 0 ∨ p.z ≠ 0) ∧ 0 < p.w := by
  unfold scaleBoxes at hp
  simp only [List.mem_flatMap] at hp
  obtain ⟨x, hx, y, hy, z, hz, hp⟩ := hp
  by_cases h : x * x + y * y + z * z ≠ 0
  · rw [if_pos h] at hp
    obtain ⟨h0, h1, h2, hw⟩ := box_ok dim (by linarith) _ _ _ hp
    obtain ⟨a0, b0, c0⟩ := coord_scale hs hx h0
    obtain ⟨a1, b1, c1⟩ := coord_scale hs hy h1
    obtain ⟨a2, b2, c2⟩ := coord_scale hs hz h2
    refine ⟨⟨a0, a1, a2⟩, b0, b1, b2, ?_, hw⟩
    by_cases hx0 : x = 0
    · by_cases hy0 : y = 0
      · have hz0 : z ≠ 0 := by
          rintro rfl; subst hx0; subst hy0; exact h (by norm_num)
        exact .inr (.inr (c2 hz0))
      · exact .inr (.inl (c1 hy0))
    · exact .inl (c0 hx0)
  · rw [if_neg h] at hp
    exact absurd hp (by simp)

theorem loop_ok (dim : Fin 3 → Bool) : ∀ (m : Nat) (s : ℚ), 0 < s → s ≤ 1 → ∀ p ∈ scaleLoop dim m s,
    (|p.x| < 1 / 2 ∧ |p.y| < 1 / 2 ∧ |p.z| < 1 / 2) ∧ (dim 0 = false → p.x = 0) ∧ (dim 1 = false → p.y = 0) ∧ (dim 2 = false → p.z = 0) ∧
    (p.x ≠ 0 ∨ p.y ≠ 0 ∨ p.z ≠ 0) ∧ 0 < p.w := by
  intro m
  induction m with
  | zero => intro s _ _ p hp; exact absurd hp (by simp [scaleLoop])
  | succ m ih =>
    intro s h0 h1 p hp
    rw [scaleLoop] at hp
    split at hp
    · rcases List.mem_append.1 hp with hp | hp
      · obtain ⟨⟨a, b, c⟩, h⟩ := scale_ok dim h0 hp
        exact ⟨⟨by linarith, by linarith, by linarith⟩, h⟩
      · exact ih (s / 3) (by linarith) (by linarith) p hp
    · exact absurd hp (by simp)

/-- Sum over a box of a product of functions of the coordinates. -/
theorem box_prod (dim : Fin 3 → Bool) (s cx cy cz : ℚ) (f f' f'' : ℚ → ℚ) : ((box dim s cx cy cz).map fun p => p.w * (f p.x * f' p.y * f'' p.z)).sum =
    ((loopD (dim 0)).map fun i => wt (dim 0) (0.5 * s) i * f (absc (dim 0) (0.5 * s) cx i)).sum *
    ((loopD (dim 1)).map fun i => wt (dim 1) (0.5 * s) i * f' (absc (dim 1) (0.5 * s) cy i)).sum *
    ((loopD (dim 2)).map fun i => wt (dim 2) (0.5 * s) i * f'' (absc (dim 2) (0.5 * s) cz i)).sum := by
  have h : ∀ (L L' L'' : List Int) (f f' f'' : Int → ℚ), (L.flatMap fun i => L'.flatMap fun j => L''.map fun k => f i * f' j * f'' k).sum =
      (L.map f).sum * (L'.map f').sum * (L''.map f'').sum := by
    intro L L' L'' f f' f''
    have h3 : ∀ c : ℚ, (L''.map fun k => c * f'' k).sum = c * (L''.map f'').sum := fun c => by
      rw [List.sum_map_mul_left]
    have h2 : ∀ c : ℚ, (L'.flatMap fun j => L''.map fun k => c * f' j * f'' k).sum = c * ((L'.map f').sum * (L''.map f'').sum) := by
      intro c
      rw [flatMap_sum]
      simp only [h3]
      rw [List.sum_map_mul_right, List.sum_map_mul_left]
      ring
    rw [flatMap_sum]
    simp only [h2]
    rw [List.sum_map_mul_right]
    ring
  rw [← h]
  unfold box
  simp only [List.map_flatMap, List.map_map]
  congr 1
  refine List.flatMap_congr fun i _ => List.flatMap_congr fun j _ => List.map_congr_left fun k _ => ?_
  simp only [Function.comp]
  ring

/-- The moments of one direction. -/
theorem moment (h c : ℚ) (e : Nat) (he : e < 14) :
    |((loopD true).map fun i => wt true h i * (absc true h c i - c) ^ e).sum - (h ^ (e + 1) - (-h) ^ (e + 1)) / (e + 1)| ≤ 1e-30 * |h| ^ (e + 1) := by
  have key : ∀ q r : ℚ, ((loopD true).map fun i => wt true h i * (absc true h c i - c) ^ e).sum = h ^ (e + 1) * q →
      (h ^ (e + 1) - (-h) ^ (e + 1)) / (e + 1) = h ^ (e + 1) * r → |q - r| ≤ 1e-30 →
      |((loopD true).map fun i => wt true h i * (absc true h c i - c) ^ e).sum - (h ^ (e + 1) - (-h) ^ (e + 1)) / (e + 1)| ≤ 1e-30 * |h| ^ (e + 1) := by
    intro q r h1 h2 h3
    rw [h1, h2, ← mul_sub, abs_mul, abs_pow, mul_comm]
    exact mul_le_mul_of_nonneg_right h3 (by positivity)
  have hX : ∀ i, absc true h c i - c = h * (gaussX (gaussPos i) * if 0 < i then 1 else -1) := fun i => by
    unfold absc; rw [if_pos rfl]; ring
  have hW : ∀ i, wt true h i = h * gaussW (gaussPos i) := fun i => rfl
  refine key (((loopD true).map fun i => gaussW (gaussPos i) * (gaussX (gaussPos i) * if 0 < i then 1 else -1) ^ e).sum) ((1 - (-1) ^ (e + 1)) / (e + 1)) ?_ ?_ ?_
  · simp only [hX, hW]
    rw [← List.sum_map_mul_left]
    congr 1
    refine List.map_congr_left fun i _ => ?_
    rw [mul_pow]; ring
  · rw [neg_pow h]; ring
  · have k3 : gaussPos (-3) = 0 := rfl
    have k2 : gaussPos (-2) = 1 := rfl
    have k1 : gaussPos (-1) = 2 := rfl
    have k0 : gaussPos 0 = 3 := rfl
    have l1 : gaussPos 1 = 2 := rfl
    have l2 : gaussPos 2 = 1 := rfl
    have l3 : gaussPos 3 = 0 := rfl
    simp only [loopD, if_true, List.map_cons, List.map_nil, List.sum_cons, List.sum_nil, k3, k2, k1, k0, l1, l2, l3]
    have w0 : gaussW 0 = 0.129484966168869693270611432679082 := rfl
    have w1 : gaussW 1 = 0.279705391489276667901467771423780 := rfl
    have w2 : gaussW 2 = 0.381830050505118944950369775488975 := rfl
    have w3 : gaussW 3 = 0.417959183673469387755102040816327 := rfl
    have x0 : gaussX 0 = 0.949107912342758524526189684047851 := rfl
    have x1 : gaussX 1 = 0.741531185599394439863864773280788 := rfl
    have x2 : gaussX 2 = 0.405845151377397166906606412076961 := rfl
    have x3 : gaussX 3 = 0 := by show (0.000000000000000000000000000000000 : ℚ) = 0; norm_num
    rw [w0, w1, w2, w3, x0, x1, x2, x3]
    interval_cases e <;> norm_num [abs_le]

/-! ### The harmonic oscillator -/

theorem osc_term (T w : ℝ) (k : Nat) : Real.exp (-((k + 1 / 2 : ℝ) * w) / T) = Real.exp (-w / T) ^ k * Real.exp (-w / (2 * T)) := by
  rw [← Real.exp_nat_mul, ← Real.exp_add]
  congr 1
  by_cases hT : T = 0
  · simp [hT]
  · field_simp
    ring

theorem osc_Z (T w : ℝ) (hT : 0 < T) (hw : 0 < w) :
    ∑' k : Nat, Real.exp (-((k + 1 / 2 : ℝ) * w) / T) = Real.exp (-w / (2 * T)) / (1 - Real.exp (-w / T)) := by
  obtain ⟨h0, h1⟩ := exp_lt T w hT hw
  simp only [osc_term]
  rw [tsum_mul_right, tsum_geometric_of_lt_one h0.le h1]
  ring

theorem osc_E (T w : ℝ) (hT : 0 < T) (hw : 0 < w) :
    ∑' k : Nat, ((k + 1 / 2 : ℝ) * w) * Real.exp (-((k + 1 / 2 : ℝ) * w) / T) =
      Real.exp (-w / (2 * T)) / (1 - Real.exp (-w / T)) * (w / 2 + w * Real.exp (-w / T) / (1 - Real.exp (-w / T))) := by
  obtain ⟨h0, h1⟩ := exp_lt T w hT hw
  simp only [osc_term]
  generalize Real.exp (-w / T) = x at *
  generalize Real.exp (-w / (2 * T)) = y
  have hn : ‖x‖ < 1 := by rw [Real.norm_eq_abs, abs_of_pos h0]; exact h1
  have s1 : Summable fun k : Nat => (k : ℝ) * x ^ k := by
    simpa using summable_pow_mul_geometric_of_norm_lt_one 1 hn
  have s2 : Summable fun k : Nat => x ^ k := summable_geometric_of_lt_one h0.le h1
  have e : (fun k : Nat => ((k + 1 / 2 : ℝ) * w) * (x ^ k * y)) = fun k : Nat => (w * y) * ((k : ℝ) * x ^ k) + (w * y / 2) * x ^ k := by
    funext k; ring
  rw [e, (s1.mul_left _).tsum_add (s2.mul_left _), tsum_mul_left, tsum_mul_left, tsum_coe_mul_geometric_of_norm_lt_one hn, tsum_geometric_of_lt_one h0.le h1]
  have : 1 - x ≠ 0 := by linarith
  field_simp
  ring

theorem osc_A (T w : ℝ) (hT : 0 < T) (hw : 0 < w) :
    -T * Real.log (∑' k : Nat, Real.exp (-((k + 1 / 2 : ℝ) * w) / T)) = w / 2 + T * Real.log (1 - Real.exp (-w / T)) := by
  obtain ⟨h0, h1⟩ := exp_lt T w hT hw
  rw [osc_Z T w hT hw, Real.log_div (Real.exp_pos _).ne' (by linarith), Real.log_exp]
  field_simp
  ring

/-! ### Where the correction fails -/

variable {n : Nat} {g : Geom n}

theorem axis_row {F : Forces n} {l m : Fin 3} (hrow : ∀ k, k ≠ m → g.R l k = 0) (hflat : ∀ f ∈ F, CellMap.toV f.1.cell m = 0) : AxisOf g F l := by
  refine ⟨fun a => g.R l m * g.x a m, fun f hf a b => ?_⟩
  have h0 := hflat f hf
  show mulMV g.R _ l = _
  unfold mulMV
  simp only
  match m, hrow, h0 with
  | 0, hrow, h0 => rw [hrow 1 (by decide), hrow 2 (by decide), h0]; ring
  | 1, hrow, h0 => rw [hrow 0 (by decide), hrow 2 (by decide), h0]; ring
  | 2, hrow, h0 => rw [hrow 0 (by decide), hrow 1 (by decide), h0]; ring

theorem rawCells_flat {p : CellMap.Inp} (hc : 0 ≤ p.circ) {c : Box.IV} (h : c ∈ CellMap.rawCells p) {l : Fin 3} (hl : p.trunc l = true) : CellMap.toV c l = 0 := by
  rw [CellMap.mem_rawCells] at h
  have h1 := (CellMap.mem_cells p (CellMap.iCellMax_nonneg p hc) c).1 h.1
  have h2 : CellMap.iCellMax p l = 0 := by unfold CellMap.iCellMax; rw [if_pos hl]
  match l, h2 with
  | 0, h2 => rw [h2] at h1; show ((c.x : ℤ) : ℝ) = 0; exact_mod_cast (show c.x = 0 by omega)
  | 1, h2 => rw [h2] at h1; show ((c.y : ℤ) : ℝ) = 0; exact_mod_cast (show c.y = 0 by omega)
  | 2, h2 => rw [h2] at h1; show ((c.z : ℤ) : ℝ) = 0; exact_mod_cast (show c.z = 0 by omega)

end
end Jdftx.Phonon
