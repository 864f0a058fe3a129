import Verif.Spec.ColBundle
import Mathlib.Tactic.Ring
import Mathlib.Tactic.Linarith
/-! # Lemmas on columns of wavefunctions -/
namespace Jdftx.Cols

variable {α : Type} [AddCommMonoid α]

theorem gather_spec (n : ℕ) (index : ℕ → ℕ) (x y : ℕ → α) (off t : ℕ) :
    gather n index x y off t = if off ≤ t ∧ t < off + n then y t + x (index (t - off)) else y t := by
  induction n with
  | zero =>
    rw [if_neg (by omega)]; rfl
  | succ n ih =>
    have : gather (n + 1) index x y off =
        Function.update (gather n index x y off) (off + n) (gather n index x y off (off + n) + x (index n)) := by
      simp [gather, List.range_succ]
    rw [this]
    by_cases ht : t = off + n
    · subst ht
      rw [Function.update_self, if_pos (by omega)]
      have h2 : gather n index x y off (off + n) = y (off + n) := by
        have : ∀ m ≤ n, gather m index x y off (off + n) = y (off + n) := by
          intro m hm
          induction m with
          | zero => rfl
          | succ m ihm =>
            have e : gather (m + 1) index x y off =
                Function.update (gather m index x y off) (off + m) (gather m index x y off (off + m) + x (index m)) := by
              simp [gather, List.range_succ]
            rw [e, Function.update_of_ne (by omega)]
            exact ihm (by omega)
        exact this n le_rfl
      rw [h2, Nat.add_sub_cancel_left]
    · rw [Function.update_of_ne ht, ih]
      by_cases h : off ≤ t ∧ t < off + n
      · rw [if_pos h, if_pos (by omega)]
      · rw [if_neg h, if_neg (by omega)]

theorem scatter_none (n : ℕ) (index : ℕ → ℕ) (x y : ℕ → α) (off g : ℕ) (h : ∀ j < n, index j ≠ g) :
    scatter n index x off y g = y g := by
  induction n with
  | zero => rfl
  | succ n ih =>
    have e : scatter (n + 1) index x off y =
        Function.update (scatter n index x off y) (index n) (scatter n index x off y (index n) + x (off + n)) := by
      simp [scatter, List.range_succ]
    rw [e, Function.update_of_ne (fun hg => h n (by omega) hg.symm)]
    exact ih fun j hj => h j (by omega)

theorem scatter_one (n : ℕ) (index : ℕ → ℕ) (x y : ℕ → α) (off j : ℕ) (hd : Distinct n index) (hj : j < n) :
    scatter n index x off y (index j) = y (index j) + x (off + j) := by
  induction n with
  | zero => omega
  | succ n ih =>
    have e : scatter (n + 1) index x off y =
        Function.update (scatter n index x off y) (index n) (scatter n index x off y (index n) + x (off + n)) := by
      simp [scatter, List.range_succ]
    rw [e]
    by_cases h : j = n
    · subst h
      rw [Function.update_self, scatter_none]
      intro k hk hkj
      have := hd k (by omega) j (by omega) hkj
      omega
    · rw [Function.update_of_ne]
      · exact ih (fun a ha b hb => hd a (by omega) b (by omega)) (by omega)
      · intro hn
        exact h (hd j (by omega) n (by omega) hn)

theorem place_eq (nb ns b s j : ℕ) : b * (nb * ns) + s * nb + j = (b * ns + s) * nb + j := by ring

theorem place_lt {nb ns nc b s j : ℕ} (hb : b < nc) (hs : s < ns) (hj : j < nb) :
    (b * ns + s) * nb + j < nc * (nb * ns) := by
  have h1 : b * ns + s + 1 ≤ nc * ns := by nlinarith
  calc (b * ns + s) * nb + j < (b * ns + s) * nb + nb := by omega
    _ = (b * ns + s + 1) * nb := by ring
    _ ≤ nc * ns * nb := Nat.mul_le_mul_right _ h1
    _ = nc * (nb * ns) := by ring

theorem place_inj {nb ns b s j b' s' j' : ℕ} (hs : s < ns) (hs' : s' < ns) (hj : j < nb) (hj' : j' < nb)
    (h : (b * ns + s) * nb + j = (b' * ns + s') * nb + j') : b = b' ∧ s = s' ∧ j = j' := by
  have h1 : b * ns + s = b' * ns + s' := by
    have e1 : ((b * ns + s) * nb + j) / nb = b * ns + s := by
      rw [mul_comm, Nat.mul_add_div (by omega), Nat.div_eq_of_lt hj, add_zero]
    have e2 : ((b' * ns + s') * nb + j') / nb = b' * ns + s' := by
      rw [mul_comm, Nat.mul_add_div (by omega), Nat.div_eq_of_lt hj', add_zero]
    rw [← e1, h, e2]
  have h2 : b = b' := by
    have e1 : (b * ns + s) / ns = b := by
      rw [mul_comm, Nat.mul_add_div (by omega), Nat.div_eq_of_lt hs, add_zero]
    have e2 : (b' * ns + s') / ns = b' := by
      rw [mul_comm, Nat.mul_add_div (by omega), Nat.div_eq_of_lt hs', add_zero]
    rw [← e1, h1, e2]
  subst h2
  rw [h1] at h
  exact ⟨rfl, by omega, by omega⟩

theorem getColumn_coefficient (B : Bundle α) (hd : Distinct B.nbasis B.index) {b s : ℕ} (hb : b < B.nCols)
    (hs : s < B.nSpinor) :
    ∃ full, B.getColumn b s = .ok full ∧ ∀ g, Coefficient B.nbasis B.nSpinor B.index B.data b s g (full g) := by
  refine ⟨_, by rw [Bundle.getColumn, if_pos ⟨hb, hs⟩], ?_⟩
  intro g
  constructor
  · rintro j hj rfl
    rw [scatter_one _ _ _ _ _ _ hd hj, zero_add, Bundle.at, Bundle.colLength, place_eq]
  · intro h
    rw [scatter_none _ _ _ _ _ _ h]

theorem setColumn_spec (B : Bundle α) {b s : ℕ} (hb : b < B.nCols) (hs : s < B.nSpinor) (full : ℕ → α) :
    ∃ d, B.setColumn b s full = .ok { B with data := d } ∧
      ∀ t, d t = if (b * B.nSpinor + s) * B.nbasis ≤ t ∧ t < (b * B.nSpinor + s) * B.nbasis + B.nbasis
        then full (B.index (t - (b * B.nSpinor + s) * B.nbasis)) else B.data t := by
  have ho : B.at b (s * B.nbasis) = (b * B.nSpinor + s) * B.nbasis := by
    simp only [Bundle.at, Bundle.colLength]; ring
  have hr : B.at b (s * B.nbasis) + B.nbasis ≤ B.nCols * B.colLength := by
    rw [ho, Bundle.colLength]
    have h1 : b * B.nSpinor + s + 1 ≤ B.nCols * B.nSpinor := by nlinarith
    calc (b * B.nSpinor + s) * B.nbasis + B.nbasis = (b * B.nSpinor + s + 1) * B.nbasis := by ring
      _ ≤ B.nCols * B.nSpinor * B.nbasis := Nat.mul_le_mul_right _ h1
      _ = B.nCols * (B.nbasis * B.nSpinor) := by ring
  refine ⟨gather B.nbasis B.index full (zeroFrom B.nbasis B.data (B.at b (s * B.nbasis))) (B.at b (s * B.nbasis)), ?_, ?_⟩
  · rw [Bundle.setColumn, if_pos hr, Bundle.accumColumn, if_pos ⟨hb, hs⟩]; rfl
  · intro t
    rw [gather_spec, ho]
    unfold zeroFrom
    split_ifs with h
    · rw [zero_add]
    · rfl

/-- What the loop over pairs has done so far. -/
theorem convert_spec (tmp Y : Bundle α) (hd : Distinct tmp.nbasis tmp.index) (hns : tmp.nSpinor = Y.nSpinor)
    (l : List (ℕ × ℕ)) (hl : ∀ p ∈ l, p.1 < Y.nCols ∧ p.1 < tmp.nCols ∧ p.2 < Y.nSpinor) :
    ∃ d, l.foldl (convertColumn tmp) (.ok Y) = .ok { Y with data := d } ∧
      ∀ b s j, s < Y.nSpinor → j < Y.nbasis →
        ((b, s) ∈ l → Coefficient tmp.nbasis tmp.nSpinor tmp.index tmp.data b s (Y.index j) (d ((b * Y.nSpinor + s) * Y.nbasis + j))) ∧
        ((b, s) ∉ l → d ((b * Y.nSpinor + s) * Y.nbasis + j) = Y.data ((b * Y.nSpinor + s) * Y.nbasis + j)) := by
  induction l using List.reverseRecOn with
  | nil => exact ⟨Y.data, rfl, fun b s j _ _ => ⟨fun h => by simp at h, fun _ => rfl⟩⟩
  | append_singleton l p ih =>
    obtain ⟨d, h1, h2⟩ := ih fun q hq => hl q (by simp [hq])
    obtain ⟨hp1, hp2, hp3⟩ := hl p (by simp)
    obtain ⟨full, g1, g2⟩ := getColumn_coefficient tmp hd (b := p.1) (s := p.2) hp2 (by rw [hns]; exact hp3)
    obtain ⟨d', s1, s2⟩ := setColumn_spec { Y with data := d } (b := p.1) (s := p.2) hp1 hp3 full
    refine ⟨d', ?_, ?_⟩
    · rw [List.foldl_append, h1]
      show convertColumn tmp (.ok { Y with data := d }) p = _
      unfold convertColumn
      rw [g1]
      exact s1
    · intro b s j hs hj
      have hval := s2 ((b * Y.nSpinor + s) * Y.nbasis + j)
      simp only at hval
      by_cases hbs : (b, s) = p
      · subst hbs
        refine ⟨fun _ => ?_, fun h => absurd (by simp) h⟩
        rw [hval, if_pos ⟨Nat.le_add_right _ _, Nat.add_lt_add_left hj _⟩, Nat.add_sub_cancel_left]
        exact g2 _
      · have hout : ¬ ((p.1 * Y.nSpinor + p.2) * Y.nbasis ≤ (b * Y.nSpinor + s) * Y.nbasis + j ∧
            (b * Y.nSpinor + s) * Y.nbasis + j < (p.1 * Y.nSpinor + p.2) * Y.nbasis + Y.nbasis) := by
          rintro ⟨ha, hb'⟩
          obtain ⟨j', hj'⟩ := Nat.exists_eq_add_of_le ha
          have := place_inj hs hp3 hj (j' := j') (by omega) hj'
          exact hbs (by rw [this.1, this.2.1])
        rw [if_neg hout] at hval
        rw [hval]
        have := h2 b s j hs hj
        constructor
        · intro hm
          rcases List.mem_append.mp hm with h | h
          · exact this.1 h
          · exact absurd (by simpa using h) hbs
        · intro hm
          exact this.2 fun h => hm (by simp [h])

theorem mem_pairs (n ns b s : ℕ) : (b, s) ∈ pairs n ns ↔ b < n ∧ s < ns := by
  simp [pairs]

end Jdftx.Cols
