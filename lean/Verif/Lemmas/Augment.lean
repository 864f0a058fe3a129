import Verif.Spec.Augment
import Verif.Props.Ylm
import Mathlib.LinearAlgebra.Matrix.Trace
import Mathlib.Data.Complex.BigOperators

/-! # Lemmas about the density augmentation -/
namespace Jdftx.Aug
open Matrix

/-! ## Indices -/

theorem less_iff (a b : Key) : less a b = true ↔ a.sort.l1 < b.sort.l1 ∨ (a.sort.l1 = b.sort.l1 ∧ (a.sort.p1 < b.sort.p1 ∨ (a.sort.p1 = b.sort.p1 ∧
    (a.sort.l2 < b.sort.l2 ∨ (a.sort.l2 = b.sort.l2 ∧ (a.sort.p2 < b.sort.p2 ∨ (a.sort.p2 = b.sort.p2 ∧ a.sort.l < b.sort.l))))))) := by
  unfold less
  dsimp only
  split_ifs <;> simp <;> omega

theorem same_iff_sort (a b : Key) : Same a b ↔ (a.sort.l1 = b.sort.l1 ∧ a.sort.p1 = b.sort.p1 ∧ a.sort.l2 = b.sort.l2 ∧ a.sort.p2 = b.sort.p2 ∧ a.sort.l = b.sort.l) := by
  obtain ⟨a1, a2, a3, a4, a5⟩ := a
  obtain ⟨b1, b2, b3, b4, b5⟩ := b
  unfold Same Key.sort
  dsimp only
  split_ifs <;> dsimp only <;> omega

theorem same_iff (a b : Key) : Same a b ↔ (less a b = false ∧ less b a = false) := by
  rw [same_iff_sort, ← Bool.not_eq_true, ← Bool.not_eq_true, less_iff, less_iff]
  omega

theorem find_lt {keys : List Key} {k : Key} {r : ℕ} (h : find keys k = some r) : r < keys.length := by
  unfold find at h
  rw [List.findIdx?_eq_some_iff_findIdx_eq] at h
  exact h.1

theorem mem_projs {V : List ℕ} {p : Proj} (h : p ∈ projs V) : p.l < V.length ∧ V.getD p.l 0 ≠ 0 ∧ |p.m| ≤ p.l := by
  unfold projs at h
  simp only [List.mem_flatMap, List.mem_range, List.mem_map] at h
  obtain ⟨l, hl, q, hq, m, hm, rfl⟩ := h
  refine ⟨hl, by show V.getD l 0 ≠ 0; omega, ?_⟩
  show |(m : ℤ) - l| ≤ l
  rw [abs_le]
  omega

theorem le_lMax_aux (V : List ℕ) (n : ℕ) : ∀ l < n, V.getD l 0 ≠ 0 → l ≤ (List.range n).foldl (fun a l => if V.getD l 0 ≠ 0 then l else a) 0 := by
  induction n with
  | zero => intro l h; omega
  | succ n ih =>
    intro l h hv
    rw [List.range_succ, List.foldl_append, List.foldl_cons, List.foldl_nil]
    split_ifs with hn
    · omega
    · rcases Nat.lt_succ_iff_lt_or_eq.1 h with h' | h'
      · exact ih l h' hv
      · subst h'; exact absurd hv hn

theorem le_lMax {V : List ℕ} {l : ℕ} (h : l < V.length) (hv : V.getD l 0 ≠ 0) : l ≤ lMax V := le_lMax_aux V V.length l h hv

variable {md : Mode} (sp : Species md)

theorem column_range (hl : sp.V.length ≤ 4) (s : ℕ) (hs : s < md.nDens) (at' : Fin sp.nAtoms) (i1 i2 : Fin sp.n) (t : Ylm.Term) (ht : t ∈ terms (sp.proj i1) (sp.proj i2)) :
    0 ≤ sp.column s at' t ∧ sp.column s at' t < (md.nDens * sp.nAtoms * Nlm sp.V : ℕ) := by
  obtain ⟨a1, a2, a3⟩ := mem_projs (List.get_mem (projs sp.V) i1)
  obtain ⟨b1, b2, b3⟩ := mem_projs (List.get_mem (projs sp.V) i2)
  have ha := le_lMax a1 a2
  have hb := le_lMax b1 b2
  obtain ⟨h1, h2, h3, -⟩ := Ylm.C88_selection _ _ _ _ (by omega) (by omega) a3 b3 t ht
  rw [abs_le] at h1
  have hL : t.l ≤ 2 * (lMax sp.V : ℤ) := by omega
  have h0 : 0 ≤ t.l := le_trans (abs_nonneg _) h2
  have hN : (Nlm sp.V : ℤ) = (2 * (lMax sp.V : ℤ) + 1) * (2 * (lMax sp.V : ℤ) + 1) := by unfold Nlm; push_cast; ring
  have hu : t.l * (t.l + 1) + t.m < (Nlm sp.V : ℤ) := by rw [hN]; nlinarith
  have hd : 0 ≤ t.l * (t.l + 1) + t.m := by nlinarith
  have hat : (at' : ℤ) + 1 ≤ sp.nAtoms := by have := at'.2; omega
  have hk : (at' : ℤ) + s * sp.nAtoms + 1 ≤ md.nDens * sp.nAtoms := by
    have : ((s : ℤ) + 1) * sp.nAtoms ≤ md.nDens * sp.nAtoms := mul_le_mul_of_nonneg_right (by omega) (by omega)
    linarith
  have hNn : (0 : ℤ) ≤ Nlm sp.V := by omega
  unfold Species.column
  constructor
  · have : 0 ≤ (Nlm sp.V : ℤ) * ((at' : ℤ) + s * sp.nAtoms) := by positivity
    linarith
  · push_cast
    have := mul_le_mul_of_nonneg_left hk hNn
    linarith

/-! ## Energy of a pair -/

/-- The sum that the gradient collects for a pair. -/
noncomputable def pairSum (E : ℕ → ℤ → ℝ) (s : ℕ) (at' : Fin sp.nAtoms) (i1 i2 : Fin sp.n) : ℝ :=
  ((terms (sp.proj i1) (sp.proj i2)).map fun t =>
    match sp.row (sp.proj i1) (sp.proj i2) t with
    | some r => (t.coeff : ℝ) * E r (sp.column s at' t)
    | none => 0).sum

theorem sum_one (N : ℕ) (f : ℤ → ℝ) (c : ℤ) (h0 : 0 ≤ c) (h1 : c < N) (x : ℝ) : ∑ k ∈ Finset.range N, f k * (if c = (k : ℤ) then x else 0) = f c * x := by
  obtain ⟨m, rfl⟩ := Int.eq_ofNat_of_zero_le h0
  rw [Finset.sum_eq_single m]
  · simp
  · intro b _ hb
    rw [if_neg (by simpa using fun h : m = b => hb h.symm), mul_zero]
  · intro h
    exact absurd (Finset.mem_range.2 (by exact_mod_cast h1)) h

theorem energy_add (E n n' : ℕ → ℤ → ℝ) : energy sp E (fun r c => n r c + n' r c) = energy sp E n + energy sp E n' := by
  unfold energy
  simp only [mul_add, Finset.sum_add_distrib]

theorem energy_zero (E : ℕ → ℤ → ℝ) : energy sp E (fun _ _ => 0) = 0 := by simp [energy]

theorem energy_sum {ι : Type*} (S : Finset ι) (E : ℕ → ℤ → ℝ) (n : ι → ℕ → ℤ → ℝ) : energy sp E (fun r c => ∑ i ∈ S, n i r c) = ∑ i ∈ S, energy sp E (n i) := by
  classical
  induction S using Finset.induction_on with
  | empty => simpa using energy_zero sp E
  | insert a S ha ih =>
    rw [Finset.sum_insert ha, ← ih, ← energy_add]
    congr 1
    funext r c
    exact Finset.sum_insert ha

theorem energy_list {ι : Type*} (L : List ι) (E : ℕ → ℤ → ℝ) (n : ι → ℕ → ℤ → ℝ) : energy sp E (fun r c => (L.map fun i => n i r c).sum) = (L.map fun i => energy sp E (n i)).sum := by
  induction L with
  | nil => simpa using energy_zero sp E
  | cons a L ih =>
    simp only [List.map_cons, List.sum_cons]
    rw [energy_add, ih]

theorem energy_pair (hl : sp.V.length ≤ 4) (E : ℕ → ℤ → ℝ) (s : ℕ) (hs : s < md.nDens) (at' : Fin sp.nAtoms) (i1 i2 : Fin sp.n) (x : ℝ) :
    energy sp E (sp.addPair s at' i1 i2 x) = pairSum sp E s at' i1 i2 * x := by
  have e : sp.addPair s at' i1 i2 x = fun r c => ((terms (sp.proj i1) (sp.proj i2)).map fun t => if sp.row (sp.proj i1) (sp.proj i2) t = some r ∧ sp.column s at' t = c then (t.coeff : ℝ) * x else 0).sum := rfl
  rw [e, energy_list, pairSum, ← List.sum_map_mul_right]
  congr 1
  apply List.map_congr_left
  intro t ht
  obtain ⟨h0, h1⟩ := column_range sp hl s hs at' i1 i2 t ht
  unfold energy
  cases hr : sp.row (sp.proj i1) (sp.proj i2) t with
  | none => simp
  | some r0 =>
    have hlt := find_lt hr
    rw [Finset.sum_eq_single r0]
    · simp only [true_and]
      rw [sum_one _ _ _ h0 h1]
      ring
    · intro b _ hb
      apply Finset.sum_eq_zero
      intro c _
      have : ¬ (some r0 = some b ∧ sp.column s at' t = (c : ℤ)) := by rintro ⟨h, -⟩; exact hb (Option.some.inj h).symm
      dsimp only
      rw [if_neg this, mul_zero]
    · intro h
      exact absurd (Finset.mem_range.2 hlt) h

/-! ## Sums over pairs -/

theorem sum_pairs {n : ℕ} (f : Fin n → Fin n → ℝ) : ∑ a, ∑ b, f a b = ∑ a, ∑ b ∈ Finset.univ.filter (· ≤ a), (if a = b then f a a else f a b + f b a) := by
  have h1 : ∀ a b : Fin n, f a b = (if b ≤ a then f a b else 0) + (if a < b then f a b else 0) := by
    intro a b
    rcases le_or_gt b a with h | h
    · rw [if_pos h, if_neg (not_lt.2 h), add_zero]
    · rw [if_neg (not_le.2 h), if_pos h, zero_add]
  have h2 : ∑ a : Fin n, ∑ b : Fin n, (if a < b then f a b else 0) = ∑ a : Fin n, ∑ b : Fin n, (if b < a then f b a else 0) := Finset.sum_comm
  calc ∑ a, ∑ b, f a b = ∑ a, ∑ b, ((if b ≤ a then f a b else 0) + (if a < b then f a b else 0)) := by simp_rw [← h1]
    _ = ∑ a, ∑ b, ((if b ≤ a then f a b else 0) + (if b < a then f b a else 0)) := by simp only [Finset.sum_add_distrib]; rw [h2]
    _ = _ := by
      apply Finset.sum_congr rfl
      intro a _
      rw [Finset.sum_filter]
      apply Finset.sum_congr rfl
      intro b _
      rcases lt_trichotomy b a with h | h | h
      · rw [if_pos h.le, if_pos h, if_pos h.le, if_neg h.ne']
      · subst h; simp
      · rw [if_neg (not_le.2 h), if_neg (not_lt.2 h.le), if_neg (not_le.2 h), add_zero]

theorem phase_self (l : ℕ) : phase l l = 1 := by simp [phase]

theorem ePair_eq (E : ℕ → ℤ → ℝ) (s : ℕ) (at' : Fin sp.nAtoms) (i1 i2 : Fin sp.n) :
    sp.ePair E s at' i1 i2 = ((pairSum sp E s at' i1 i2 * (1 / sp.detR) : ℝ) : ℂ) * phase (sp.proj i1).l (sp.proj i2).l := rfl

theorem trace_re {n : ℕ} (A B : Matrix (Fin n) (Fin n) ℂ) : (trace (A * B)).re = ∑ a, ∑ b, (A a b * B b a).re := by
  simp [Matrix.trace, Matrix.mul_apply]

theorem energy_mat (hl : sp.V.length ≤ 4) (E : ℕ → ℤ → ℝ) (w : ℝ) (s : ℕ) (hs : s < md.nDens) (at' : Fin sp.nAtoms) (R : sp.Mat1) (hR : R.IsHermitian) :
    energy sp E (sp.addMat w s at' R) = w * (trace (sp.eMat E s at' * R)).re := by
  have e : sp.addMat w s at' R = fun r c => ∑ i1, ∑ i2 ∈ Finset.univ.filter (· ≤ i1), sp.addPair s at' i1 i2 (sp.prefac w R i1 i2) r c := rfl
  rw [e, energy_sum, trace_re, sum_pairs, Finset.mul_sum]
  apply Finset.sum_congr rfl
  intro a _
  rw [energy_sum, Finset.mul_sum]
  apply Finset.sum_congr rfl
  intro b hb
  have hba : b ≤ a := (Finset.mem_filter.1 hb).2
  rw [energy_pair sp hl E s hs]
  unfold Species.prefac Species.eMat
  simp only [Matrix.of_apply]
  by_cases h : a = b
  · subst h
    simp only [if_true, le_refl, ne_eq, not_true_eq_false, and_false, if_false, add_zero, ePair_eq, phase_self, mul_one]
    simp
    ring
  · have hlt : ¬ a ≤ b := fun h' => h (le_antisymm h' hba)
    have hRab : R a b = star (R b a) := (hR.apply a b).symm
    have hne : ¬ b = a := fun h' => h h'.symm
    simp only [h, if_false, hlt, hba, ne_eq, hne, not_false_eq_true, and_self, if_true, zero_add, false_and, add_zero, ePair_eq, hRab]
    simp
    ring

/-! ## Spin -/

theorem split_herm {n : ℕ} (md : Mode) (index : ℕ) (R : Matrix (Fin n × Fin md.k) (Fin n × Fin md.k) ℂ) (hR : R.IsHermitian) (s : ℕ) (R1 : Matrix (Fin n) (Fin n) ℂ)
    (h : split md index R s = some R1) : R1.IsHermitian := by
  have hp : ∀ a b, star (R a b) = R b a := fun a b => hR.apply b a
  apply Matrix.IsHermitian.ext
  intro i j
  cases md with
  | col m =>
    simp only [split] at h
    split_ifs at h
    cases h
    exact hp _ _
  | ncol1 =>
    simp only [split] at h
    split_ifs at h
    cases h
    simp only [Matrix.add_apply, part, Matrix.of_apply, star_add]
    exact congrArg₂ (· + ·) (hp _ _) (hp _ _)
  | ncol4 =>
    simp only [split] at h
    split at h <;> cases h <;> simp only [Matrix.add_apply, Matrix.sub_apply, Matrix.smul_apply, part, Matrix.of_apply, star_add, star_sub, smul_eq_mul, star_mul']
    · exact hp _ _
    · exact hp _ _
    · refine (congrArg₂ (fun x y => star (1 / 2 : ℂ) * (x + y)) (hp _ _) (hp _ _)).trans ?_
      simp
      ring
    · refine (congrArg₂ (fun x y => star (-(1 / 2) : ℂ) * star Complex.I * (x - y)) (hp _ _) (hp _ _)).trans ?_
      simp
      ring

theorem collate_trace {n : ℕ} (md : Mode) (index : ℕ) (hi : ∀ m, md = .col m → index < m) (e : ℕ → Matrix (Fin n) (Fin n) ℂ) (R : Matrix (Fin n × Fin md.k) (Fin n × Fin md.k) ℂ) :
    ∑ s ∈ Finset.range md.nDens, (match split md index R s with | some R1 => trace (e s * R1) | none => 0) = trace (collate md index e * R) := by
  cases md with
  | col m =>
    have := hi m rfl
    rw [Finset.sum_eq_single index]
    · simp only [split, if_true]
      simp only [Matrix.trace, Matrix.mul_apply, Matrix.diag_apply, collate, part, Matrix.of_apply]
      change _ = ∑ x : Fin n × Fin 1, ∑ j : Fin n × Fin 1, e index x.1 j.1 * R j x
      simp [Fintype.sum_prod_type]
    · intro b _ hb
      simp [split, hb]
    · intro h
      exact absurd (Finset.mem_range.2 this) h
  | ncol1 =>
    change ∑ s ∈ Finset.range 1, _ = _
    rw [Finset.sum_range_one]
    simp only [split, if_true, Matrix.trace, Matrix.mul_apply, Matrix.diag_apply, collate, part, Matrix.of_apply, Matrix.add_apply]
    change _ = ∑ x : Fin n × Fin 2, ∑ j : Fin n × Fin 2, (if x.2 = j.2 then e 0 x.1 j.1 else 0) * R j x
    simp [Fintype.sum_prod_type, Fin.sum_univ_two, mul_add, Finset.sum_add_distrib]
  | ncol4 =>
    change ∑ s ∈ Finset.range 4, _ = _
    simp only [Finset.sum_range_succ, Finset.sum_range_zero, zero_add]
    simp only [split, Matrix.trace, Matrix.mul_apply, Matrix.diag_apply, collate, part, Matrix.of_apply, Matrix.add_apply, Matrix.sub_apply, Matrix.smul_apply, smul_eq_mul]
    change _ = ∑ x : Fin n × Fin 2, ∑ j : Fin n × Fin 2, (if x.2 = 0 then (if j.2 = 0 then e 0 x.1 j.1 else (0.5 : ℂ) * e 2 x.1 j.1 + (0.5 * Complex.I) * e 3 x.1 j.1)
      else (if j.2 = 0 then (0.5 : ℂ) * e 2 x.1 j.1 - (0.5 * Complex.I) * e 3 x.1 j.1 else e 1 x.1 j.1)) * R j x
    simp only [Fintype.sum_prod_type, Fin.sum_univ_two, ← Finset.sum_add_distrib]
    apply Finset.sum_congr rfl
    intro a _
    apply Finset.sum_congr rfl
    intro b _
    simp
    ring

theorem energy_state (hl : sp.V.length ≤ 4) (E : ℕ → ℤ → ℝ) (w : ℝ) (index : ℕ) (hi : ∀ m, md = .col m → index < m) (R : Fin sp.nAtoms → sp.Mat) (hR : ∀ a, (R a).IsHermitian) :
    energy sp E (sp.addState w index R) = w * ∑ at', (trace (collate md index (fun s => sp.eMat E s at') * R at')).re := by
  have e : sp.addState w index R = fun r c => ∑ at', ∑ s ∈ Finset.range md.nDens, (match split md index (R at') s with | some R1 => sp.addMat w s at' R1 r c | none => 0) := rfl
  rw [e, energy_sum, Finset.mul_sum]
  apply Finset.sum_congr rfl
  intro at' _
  rw [energy_sum, ← collate_trace md index hi, Complex.re_sum, Finset.mul_sum]
  apply Finset.sum_congr rfl
  intro s hs
  cases h : split md index (R at') s with
  | none => simpa using energy_zero sp E
  | some R1 => exact energy_mat sp hl E w s (Finset.mem_range.1 hs) at' R1 (split_herm md index _ (hR at') s R1 h)

/-! ## Relativistic transformation and projections -/

theorem rel_herm (hf : ∀ f, sp.flj = some f → f.IsHermitian) (R : sp.Mat) (hR : R.IsHermitian) : (sp.rel R).IsHermitian := by
  unfold Species.rel
  cases h : sp.flj with
  | none => exact hR
  | some f =>
    have := hf f h
    show (f * R * f)ᴴ = f * R * f
    rw [conjTranspose_mul, conjTranspose_mul, this.eq, hR.eq, Matrix.mul_assoc]

theorem rel_trace (A R : sp.Mat) : trace (A * sp.rel R) = trace (sp.rel A * R) := by
  unfold Species.rel
  cases sp.flj with
  | none => rfl
  | some f =>
    show trace (A * (f * R * f)) = trace (f * A * f * R)
    rw [← Matrix.mul_assoc, Matrix.trace_mul_comm]
    simp only [Matrix.mul_assoc]

theorem dens_herm {nb : ℕ} {ι : Type} [Fintype ι] (V : Matrix ι (Fin nb) ℂ) (F : Fin nb → ℝ) : (V * diagonal (fun b => (F b : ℂ)) * Vᴴ).IsHermitian := by
  have hd : (diagonal (fun b => (F b : ℂ)))ᴴ = diagonal (fun b => (F b : ℂ)) := by
    rw [diagonal_conjTranspose]; congr 1; funext b; simp
  show _ᴴ = _
  rw [conjTranspose_mul, conjTranspose_mul, conjTranspose_conjTranspose, hd, Matrix.mul_assoc]

theorem trace_dens {nb : ℕ} {ι : Type} [Fintype ι] (H : Matrix ι ι ℂ) (V W : Matrix ι (Fin nb) ℂ) (F : Fin nb → ℝ) :
    (trace (H * (V * diagonal (fun b => (F b : ℂ)) * Wᴴ))).re = ∑ b, F b * (∑ i, star (W i b) * (H * V) i b).re := by
  rw [← Matrix.mul_assoc, ← Matrix.mul_assoc, Matrix.trace_mul_comm, Matrix.trace, Complex.re_sum]
  apply Finset.sum_congr rfl
  intro b _
  rw [Matrix.diag_apply, Matrix.mul_apply, ← Complex.re_ofReal_mul, Finset.mul_sum]
  congr 1
  apply Finset.sum_congr rfl
  intro i _
  rw [Matrix.mul_diagonal, conjTranspose_apply]
  ring

/-! ## Elements of the density -/

theorem find_iff {keys : List Key} (hk : keys.Pairwise fun a b => less a b = true) (k : Key) (r : Fin keys.length) : find keys k = some r.1 ↔ Same (keys.get r) k := by
  have hb : ∀ k' : Key, (!less k k' && !less k' k) = true ↔ Same k' k := by
    intro k'
    rw [same_iff]
    simp [and_comm]
  unfold find
  rw [List.findIdx?_eq_some_iff_getElem]
  constructor
  · rintro ⟨h, h1, -⟩
    exact (hb _).1 h1
  · intro h
    refine ⟨r.2, (hb _).2 h, ?_⟩
    intro j hj
    have hl := List.pairwise_iff_getElem.1 hk j r.1 (by have := r.2; omega) r.2 hj
    intro hc
    have h1 := (hb _).1 hc
    rw [same_iff_sort] at h h1
    have h2 : Same (keys[j]'(by have := r.2; omega)) (keys[r.1]) := by
      rw [same_iff_sort]
      have e : keys.get r = keys[r.1] := rfl
      rw [e] at h
      omega
    rw [same_iff] at h2
    rw [h2.1] at hl
    exact absurd hl (by simp)

theorem lm_inj {l m l' m' : ℤ} (h : |m| ≤ l) (h' : |m'| ≤ l') (e : l * (l + 1) + m = l' * (l' + 1) + m') : l = l' ∧ m = m' := by
  rw [abs_le] at h h'
  have : l = l' := by
    rcases lt_trichotomy l l' with g | g | g
    · nlinarith
    · exact g
    · nlinarith
  subst this
  exact ⟨rfl, by linarith⟩

theorem lm_range {L l m : ℤ} (h : |m| ≤ l) (hl : l ≤ 2 * L) : 0 ≤ l * (l + 1) + m ∧ l * (l + 1) + m < (2 * L + 1) * (2 * L + 1) := by
  rw [abs_le] at h
  constructor <;> nlinarith

theorem divmod_unique {N x y a b : ℤ} (hx : 0 ≤ x) (hx' : x < N) (hy : 0 ≤ y) (hy' : y < N) (e : N * a + x = N * b + y) : a = b ∧ x = y := by
  have : a = b := by
    rcases lt_trichotomy a b with g | g | g
    · nlinarith
    · exact g
    · nlinarith
  subst this
  exact ⟨rfl, by linarith⟩

theorem term_range (hl : sp.V.length ≤ 4) (i1 i2 : Fin sp.n) (t : Ylm.Term) (ht : t ∈ terms (sp.proj i1) (sp.proj i2)) : |t.m| ≤ t.l ∧ t.l ≤ 2 * (lMax sp.V : ℤ) := by
  obtain ⟨a1, a2, a3⟩ := mem_projs (List.get_mem (projs sp.V) i1)
  obtain ⟨b1, b2, b3⟩ := mem_projs (List.get_mem (projs sp.V) i2)
  have ha := le_lMax a1 a2
  have hb := le_lMax b1 b2
  obtain ⟨h1, h2, h3, -⟩ := Ylm.C88_selection _ _ _ _ (by omega) (by omega) a3 b3 t ht
  exact ⟨h1, by omega⟩

theorem column_iff (s s' : ℕ) (a a' : Fin sp.nAtoms) (l m : ℤ) (hm : |m| ≤ l) (hL : l ≤ 2 * (lMax sp.V : ℤ)) (t : Ylm.Term) (ht : |t.m| ≤ t.l ∧ t.l ≤ 2 * (lMax sp.V : ℤ)) :
    sp.column s' a' t = position sp s a l m ↔ s' = s ∧ a' = a ∧ t.l = l ∧ t.m = m := by
  have hN : (Nlm sp.V : ℤ) = (2 * (lMax sp.V : ℤ) + 1) * (2 * (lMax sp.V : ℤ) + 1) := by unfold Nlm; push_cast; ring
  obtain ⟨x0, x1⟩ := lm_range ht.1 ht.2
  obtain ⟨y0, y1⟩ := lm_range hm hL
  rw [← hN] at x1 y1
  unfold Species.column position
  constructor
  · intro e
    obtain ⟨e1, e2⟩ := divmod_unique (a := (a' : ℤ) + s' * sp.nAtoms) (b := (a : ℤ) + sp.nAtoms * s) x0 x1 y0 y1 (by linarith)
    obtain ⟨e3, e4⟩ := divmod_unique (N := (sp.nAtoms : ℤ)) (x := (a' : ℤ)) (y := (a : ℤ)) (a := (s' : ℤ)) (b := (s : ℤ)) (by omega) (by have := a'.2; omega) (by omega) (by have := a.2; omega) (by linarith)
    obtain ⟨e5, e6⟩ := lm_inj ht.1 hm e2
    exact ⟨by omega, Fin.ext (by omega), e5, e6⟩
  · rintro ⟨rfl, rfl, rfl, rfl⟩
    ring

open Classical in
theorem addPair_at (hl : sp.V.length ≤ 4) (hk : sp.keys.Pairwise fun a b => less a b = true) (s s' : ℕ) (a a' : Fin sp.nAtoms) (l m : ℤ) (hm : |m| ≤ l) (hL : l ≤ 2 * (lMax sp.V : ℤ)) (i1 i2 : Fin sp.n) (x : ℝ) (r : Fin sp.keys.length) :
    sp.addPair s' a' i1 i2 x r (position sp s a l m) =
      if s' = s ∧ a' = a then (if Same (sp.keys.get r) ⟨(sp.proj i1).l, (sp.proj i1).p, (sp.proj i2).l, (sp.proj i2).p, l⟩ then gaunt (sp.proj i1) (sp.proj i2) l m * x else 0) else 0 := by
  have key : sp.addPair s' a' i1 i2 x r (position sp s a l m) = ((terms (sp.proj i1) (sp.proj i2)).map fun t => (if t.l = l ∧ t.m = m then (t.coeff : ℝ) else 0) *
      (if s' = s ∧ a' = a then (if Same (sp.keys.get r) ⟨(sp.proj i1).l, (sp.proj i1).p, (sp.proj i2).l, (sp.proj i2).p, l⟩ then x else 0) else 0)).sum := by
    unfold Species.addPair
    congr 1
    apply List.map_congr_left
    intro t ht
    have hf := find_iff hk ⟨(sp.proj i1).l, (sp.proj i1).p, (sp.proj i2).l, (sp.proj i2).p, t.l⟩ r
    have hc := column_iff sp s s' a a' l m hm hL t (term_range sp hl i1 i2 t ht)
    have hrow : sp.row (sp.proj i1) (sp.proj i2) t = find sp.keys ⟨(sp.proj i1).l, (sp.proj i1).p, (sp.proj i2).l, (sp.proj i2).p, t.l⟩ := rfl
    have hiff : (sp.row (sp.proj i1) (sp.proj i2) t = some r.1 ∧ sp.column s' a' t = position sp s a l m) ↔
        (Same (sp.keys.get r) ⟨(sp.proj i1).l, (sp.proj i1).p, (sp.proj i2).l, (sp.proj i2).p, t.l⟩ ∧ s' = s ∧ a' = a ∧ t.l = l ∧ t.m = m) := by
      rw [hrow, hf, hc]
    rw [if_congr hiff rfl rfl]
    by_cases h1 : t.l = l ∧ t.m = m
    · obtain ⟨rfl, rfl⟩ := h1
      by_cases h2 : s' = s ∧ a' = a
      · obtain ⟨rfl, rfl⟩ := h2
        by_cases h3 : Same (sp.keys.get r) ⟨(sp.proj i1).l, (sp.proj i1).p, (sp.proj i2).l, (sp.proj i2).p, t.l⟩
        · simp
        · simp
      · rw [if_neg (by tauto), if_neg h2, mul_zero]
    · rw [if_neg (by tauto), if_neg h1, zero_mul]
  rw [key, List.sum_map_mul_right]
  have hg : ((terms (sp.proj i1) (sp.proj i2)).map fun t => if t.l = l ∧ t.m = m then (t.coeff : ℝ) else 0).sum = gaunt (sp.proj i1) (sp.proj i2) l m := rfl
  rw [hg]
  split_ifs <;> simp

theorem phase_eq (l1 l2 : ℕ) : phase l1 l2 = Complex.I ^ ((l2 : ℤ) - l1) := by
  unfold phase
  have hI : Complex.exp ((Real.pi / 2 : ℂ) * Complex.I) = Complex.I := by
    rw [Complex.exp_mul_I]; simp
  conv_rhs => rw [← hI]
  rw [← Complex.exp_int_mul]
  congr 1
  push_cast
  ring

theorem expand_comm (a b : ℕ) : Ylm.expand a b = Ylm.expand b a := by
  unfold Ylm.expand
  rcases lt_trichotomy a b with h | h | h
  · simp [h, not_lt.2 h.le]
  · subst h; rfl
  · simp [h, not_lt.2 h.le]

theorem gaunt_comm (a b : Proj) (l m : ℤ) : gaunt a b l m = gaunt b a l m := by
  unfold gaunt
  rw [expand_comm]

theorem same_swap (k : Key) (a1 a2 a3 a4 a5 : ℤ) : Same k ⟨a1, a2, a3, a4, a5⟩ ↔ Same k ⟨a3, a4, a1, a2, a5⟩ := by
  unfold Same
  dsimp only
  tauto

theorem phase_conj (l1 l2 : ℕ) : phase l2 l1 = star (phase l1 l2) := by
  unfold phase
  rw [Complex.star_def, ← Complex.exp_conj]
  congr 1
  rw [map_mul, Complex.conj_ofReal, Complex.conj_I]
  push_cast
  ring

theorem addMat_at (hl : sp.V.length ≤ 4) (hk : sp.keys.Pairwise fun a b => less a b = true) (s s' : ℕ) (a a' : Fin sp.nAtoms) (l m : ℤ) (hm : |m| ≤ l) (hL : l ≤ 2 * (lMax sp.V : ℤ)) (w : ℝ) (R : sp.Mat1) (hR : R.IsHermitian)
    (r : Fin sp.keys.length) : sp.addMat w s' a' R r (position sp s a l m) = if s' = s ∧ a' = a then w * coefficient sp R r l m else 0 := by
  classical
  unfold Species.addMat
  simp only [addPair_at sp hl hk s s' a a' l m hm hL]
  by_cases h : s' = s ∧ a' = a
  · simp only [h, and_self, if_true]
    unfold coefficient
    rw [sum_pairs, Finset.mul_sum, Finset.mul_sum]
    apply Finset.sum_congr rfl
    intro i _
    rw [Finset.mul_sum, Finset.mul_sum]
    apply Finset.sum_congr rfl
    intro j _
    simp only [← phase_eq]
    rw [gaunt_comm (sp.proj j) (sp.proj i)]
    have hs := same_swap (sp.keys.get r) (sp.proj j).l (sp.proj j).p (sp.proj i).l (sp.proj i).p l
    have hre : (phase (sp.proj j).l (sp.proj i).l * R i j).re = (phase (sp.proj i).l (sp.proj j).l * R j i).re := by
      rw [phase_conj, ← hR.apply i j, ← star_mul', Complex.star_def, Complex.conj_re]
    unfold Species.prefac
    rw [hre, mul_comm (R j i)]
    by_cases hij : i = j
    · subst hij
      simp only [if_true]
      split_ifs
      · ring
      · ring
    · simp only [hij, if_false]
      by_cases hS : Same (sp.keys.get r) ⟨(sp.proj i).l, (sp.proj i).p, (sp.proj j).l, (sp.proj j).p, l⟩
      · rw [if_pos hS, if_pos hS, if_pos (hs.2 hS)]
        ring
      · rw [if_neg hS, if_neg hS, if_neg (fun h' => hS (hs.1 h'))]
        ring
  · simp [h]

/-! ## Linearity -/

/-- A component, or zero. -/
noncomputable def split0 {n : ℕ} (md : Mode) (index : ℕ) (R : Matrix (Fin n × Fin md.k) (Fin n × Fin md.k) ℂ) (s : ℕ) : Matrix (Fin n) (Fin n) ℂ := (split md index R s).getD 0

theorem split0_comb {n : ℕ} (md : Mode) (index : ℕ) (R R' : Matrix (Fin n × Fin md.k) (Fin n × Fin md.k) ℂ) (x : ℂ) (s : ℕ) :
    split0 md index (R + x • R') s = split0 md index R s + x • split0 md index R' s := by
  unfold split0
  cases md with
  | col m =>
    simp only [split]
    split_ifs
    · ext i j; rfl
    · simp
  | ncol1 =>
    simp only [split]
    split_ifs
    · ext i j
      show (R _ _ + x * R' _ _) + (R _ _ + x * R' _ _) = (R _ _ + R _ _) + x * (R' _ _ + R' _ _)
      ring
    · simp
  | ncol4 =>
    simp only [split]
    rcases s with _ | _ | _ | _ | s
    · ext i j; rfl
    · ext i j; rfl
    · ext i j
      show (1 / 2 : ℂ) * ((R _ _ + x * R' _ _) + (R _ _ + x * R' _ _)) = (1 / 2 : ℂ) * (R _ _ + R _ _) + x * ((1 / 2 : ℂ) * (R' _ _ + R' _ _))
      ring
    · ext i j
      show (-(1 / 2) * Complex.I : ℂ) * ((R _ _ + x * R' _ _) - (R _ _ + x * R' _ _)) = (-(1 / 2) * Complex.I : ℂ) * (R _ _ - R _ _) + x * ((-(1 / 2) * Complex.I : ℂ) * (R' _ _ - R' _ _))
      ring
    · simp

theorem addPair_lin (s : ℕ) (at' : Fin sp.nAtoms) (i1 i2 : Fin sp.n) (x : ℝ) (r : ℕ) (c : ℤ) : sp.addPair s at' i1 i2 x r c = sp.addPair s at' i1 i2 1 r c * x := by
  unfold Species.addPair
  rw [← List.sum_map_mul_right]
  congr 1
  apply List.map_congr_left
  intro t _
  split_ifs <;> ring

theorem addMat_comb (w : ℝ) (s : ℕ) (at' : Fin sp.nAtoms) (R R' : sp.Mat1) (x : ℝ) (r : ℕ) (c : ℤ) :
    sp.addMat w s at' (R + (x : ℂ) • R') r c = sp.addMat w s at' R r c + x * sp.addMat w s at' R' r c := by
  unfold Species.addMat
  rw [Finset.mul_sum, ← Finset.sum_add_distrib]
  apply Finset.sum_congr rfl
  intro i1 _
  rw [Finset.mul_sum, ← Finset.sum_add_distrib]
  apply Finset.sum_congr rfl
  intro i2 _
  rw [addPair_lin, addPair_lin sp s at' i1 i2 (sp.prefac w R i1 i2), addPair_lin sp s at' i1 i2 (sp.prefac w R' i1 i2)]
  have : sp.prefac w (R + (x : ℂ) • R') i1 i2 = sp.prefac w R i1 i2 + x * sp.prefac w R' i1 i2 := by
    unfold Species.prefac
    simp
    ring
  rw [this]
  ring

theorem addMat_zero (w : ℝ) (s : ℕ) (at' : Fin sp.nAtoms) (r : ℕ) (c : ℤ) : sp.addMat w s at' 0 r c = 0 := by
  have := addMat_comb sp w s at' 0 0 1 r c
  simp at this
  exact this

theorem addState_eq (w : ℝ) (index : ℕ) (R : Fin sp.nAtoms → sp.Mat) (r : ℕ) (c : ℤ) :
    sp.addState w index R r c = ∑ at', ∑ s ∈ Finset.range md.nDens, sp.addMat w s at' (split0 md index (R at') s) r c := by
  unfold Species.addState split0
  apply Finset.sum_congr rfl
  intro a _
  apply Finset.sum_congr rfl
  intro s _
  cases split md index (R a) s with
  | none => exact (addMat_zero sp w s a r c).symm
  | some R1 => rfl

theorem addState_comb (w : ℝ) (index : ℕ) (R R' : Fin sp.nAtoms → sp.Mat) (x : ℝ) (r : ℕ) (c : ℤ) :
    sp.addState w index (fun a => R a + (x : ℂ) • R' a) r c = sp.addState w index R r c + x * sp.addState w index R' r c := by
  simp only [addState_eq, split0_comb, addMat_comb, Finset.sum_add_distrib, Finset.mul_sum]

theorem split0_component {n : ℕ} (md : Mode) (index : ℕ) (R : Matrix (Fin n × Fin md.k) (Fin n × Fin md.k) ℂ) (s : ℕ) (hs : s < md.nDens) : split0 md index R s = component md index R s := by
  unfold split0
  cases md with
  | col m =>
    simp only [split, component]
    split_ifs
    · rfl
    · rfl
  | ncol1 =>
    have : s = 0 := by change s < 1 at hs; omega
    subst this
    ext i j
    simp only [split, component, if_true, Matrix.of_apply, Fin.sum_univ_two]
    rfl
  | ncol4 =>
    change s < 4 at hs
    suffices key : ∀ R : Matrix (Fin n × Fin 2) (Fin n × Fin 2) ℂ, (split .ncol4 index R s).getD 0 = component .ncol4 index R s from key R
    intro R
    have : s = 0 ∨ s = 1 ∨ s = 2 ∨ s = 3 := by omega
    rcases this with rfl | rfl | rfl | rfl <;> ext i j <;> simp [split, component, part, Fin.sum_univ_two]
    · rfl
    · rfl
    · rfl
    · have : ∀ x y : ℂ, -(2⁻¹ * Complex.I * (x - y)) = -Complex.I / 2 * x + Complex.I / 2 * y := fun x y => by ring
      exact this _ _

theorem rel_comb (R R' : sp.Mat) (x : ℂ) : sp.rel (R + x • R') = sp.rel R + x • sp.rel R' := by
  unfold Species.rel
  cases sp.flj with
  | none => rfl
  | some f => simp [Matrix.mul_add, Matrix.add_mul]

end Jdftx.Aug
