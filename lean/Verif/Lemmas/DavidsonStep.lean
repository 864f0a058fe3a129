import Verif.Lemmas.Davidson
import Verif.Lemmas.ElecMin

/-! # Lemmas on one iteration of the Davidson band solver -/
set_option linter.unusedSectionVars false
namespace Jdftx.Davidson
open Matrix Jdftx.ElecMin Jdftx.MatFn ComplexConjugate
open scoped ComplexOrder
noncomputable section

variable {B P : Type} [Fintype B] {n m k : ℕ}

/-- What holds of the working set between the iterations. -/
structure Good (S : Sys B P) (s : State B P) : Prop where
  ritz : Ritz S s.C s.eigs
  hc : s.HC = S.H * s.C
  v : s.V = S.proj * s.C

/-- Two sets of columns side by side. -/
def cat (C : Matrix B (Fin n) ℂ) (X : Matrix B (Fin m) ℂ) : Matrix B (Fin (n + m)) ℂ := Matrix.of fun i => Fin.addCases (C i) (X i)

theorem cat_left (C : Matrix B (Fin n) ℂ) (X : Matrix B (Fin m) ℂ) (i : B) (j : Fin n) : cat C X i (Fin.castAdd m j) = C i j := by simp [cat]
theorem cat_right (C : Matrix B (Fin n) ℂ) (X : Matrix B (Fin m) ℂ) (i : B) (j : Fin m) : cat C X i (Fin.natAdd n j) = X i j := by simp [cat]

theorem cat_gram (A : Matrix B B ℂ) (C : Matrix B (Fin n) ℂ) (X : Matrix B (Fin m) ℂ) :
    (cat C X)ᴴ * (A * cat C X) = blocks (Cᴴ * (A * C)) (Cᴴ * (A * X)) (Xᴴ * (A * C)) (Xᴴ * (A * X)) := by
  ext i j
  refine Fin.addCases (fun i' => ?_) (fun i' => ?_) i <;> refine Fin.addCases (fun j' => ?_) (fun j' => ?_) j <;>
    simp only [blocks, of_apply, Fin.addCases_left, Fin.addCases_right, mul_apply, conjTranspose_apply, cat_left, cat_right]

theorem bigO_eq {S : Sys B P} (hS : S.OK) {s : State B P} (hs : Ritz S s.C s.eigs) (X : Matrix B (Fin m) ℂ) : bigO S s X = (cat s.C X)ᴴ * (S.O * cat s.C X) := by
  rw [cat_gram, hs.ortho]
  unfold bigO
  simp only [conjTranspose_mul, conjTranspose_conjTranspose, hS.overlap.1.eq, Matrix.mul_assoc]

theorem bigH_eq {S : Sys B P} (hS : S.OK) {s : State B P} (hs : Ritz S s.C s.eigs) (X : Matrix B (Fin m) ℂ) : bigH S s X = (cat s.C X)ᴴ * (S.H * cat s.C X) := by
  rw [cat_gram, hs.diag]
  unfold bigH
  simp only [conjTranspose_mul, conjTranspose_conjTranspose, hS.herm.eq, Matrix.mul_assoc]

theorem cat_mul (C : Matrix B (Fin n) ℂ) (X : Matrix B (Fin m) ℂ) (r : Matrix (Fin (n + m)) (Fin k) ℂ) :
    cat C X * r = C * (Matrix.of fun i j => r (Fin.castAdd m i) j) + X * (Matrix.of fun i j => r (Fin.natAdd n i) j) := by
  ext i j
  simp only [mul_apply, Matrix.add_apply, Fin.sum_univ_add, cat_left, cat_right, of_apply]

theorem daggerSymm_eq {A : ElecMin.Mat n} (h : A.IsHermitian) : daggerSymm A = A := by
  unfold daggerSymm
  rw [h.eq, ← two_smul ℂ A, smul_smul]
  norm_num

/-- The complete solution in the expanded subspace. -/
theorem big_ritz {l : ∀ n, Lapack n} (hl : LapackOK l) {S : Sys B P} (hS : S.OK) {s : State B P} (hs : Ritz S s.C s.eigs) {X : Matrix B (Fin m) ℂ} {U : ElecMin.Mat (s.nb + m)}
    (hU : orthoMatrix (l _) (bigO S s X) = some U) :
    Ritz S (cat s.C X * (U * ((l _).eig (daggerSymm (Uᴴ * bigH S s X * U))).1)) ((l _).eig (daggerSymm (Uᴴ * bigH S s X * U))).2 ∧
      Within (cat s.C X) (cat s.C X * (U * ((l _).eig (daggerSymm (Uᴴ * bigH S s X * U))).1)) := by
  obtain ⟨-, -, -, -, h1, h2⟩ := ortho_some (hl.ok _) hU
  have hA : (Uᴴ * bigH S s X * U).IsHermitian := by
    rw [bigH_eq hS hs]
    unfold Matrix.IsHermitian
    simp only [conjTranspose_mul, conjTranspose_conjTranspose, hS.herm.eq, Matrix.mul_assoc]
  rw [daggerSymm_eq hA]
  have he := (hl.ok _).eig _ hA
  set V := ((l _).eig (Uᴴ * bigH S s X * U)).1
  rw [bigO_eq hS hs] at h1
  rw [bigH_eq hS hs] at he hA ⊢
  have hsort := hl.sorted _ _ hA
  set W := cat s.C X
  have hV : IsUnit V.det := (mul_det_unit he.right).1
  have hUV : IsUnit (U * V).det := by rw [det_mul]; exact h2.mul hV
  refine ⟨⟨?_, ?_, hsort⟩, ⟨(U * V)⁻¹, ?_⟩⟩
  · calc (W * (U * V))ᴴ * (S.O * (W * (U * V))) = Vᴴ * (Uᴴ * (Wᴴ * (S.O * W) * U)) * V := by simp only [conjTranspose_mul, Matrix.mul_assoc]
      _ = 1 := by rw [h1, Matrix.mul_one, he.left]
  · calc (W * (U * V))ᴴ * (S.H * (W * (U * V))) = Vᴴ * ((Uᴴ * (Wᴴ * (S.H * W)) * U) * V) := by simp only [conjTranspose_mul, Matrix.mul_assoc]
      _ = _ := by rw [he.eq, ← Matrix.mul_assoc, he.left, Matrix.one_mul]
  · rw [Matrix.mul_assoc, Matrix.mul_nonsing_inv _ hUV, Matrix.mul_one]

theorem ritz_take {S : Sys B P} {Q : Matrix B (Fin n) ℂ} {e : Fin n → ℝ} (h : Ritz S Q e) (hk : k ≤ n) : Ritz S (Matrix.of fun i j => Q i (Fin.castLE hk j)) fun j => e (Fin.castLE hk j) := by
  have hsub : ∀ A : Matrix B B ℂ, (Matrix.of fun i j => Q i (Fin.castLE hk j) : Matrix B (Fin k) ℂ)ᴴ * (A * Matrix.of fun i j => Q i (Fin.castLE hk j)) = (Qᴴ * (A * Q)).submatrix (Fin.castLE hk) (Fin.castLE hk) := by
    intro A
    ext i j
    simp [mul_apply]
  refine ⟨?_, ?_, fun a b hab => h.sorted (by simpa using hab)⟩
  · rw [hsub, h.ortho]
    exact Matrix.submatrix_one _ (Fin.castLE_injective hk)
  · rw [hsub, h.diag]
    exact Matrix.submatrix_diagonal _ _ (Fin.castLE_injective hk)

theorem mul_lin {T : Type} (A : Matrix T B ℂ) (C : Matrix B (Fin n) ℂ) (X : Matrix B (Fin m) ℂ) (Y : Matrix (Fin n) (Fin k) ℂ) (Z : Matrix (Fin m) (Fin k) ℂ) : A * C * Y + A * X * Z = A * (C * Y + X * Z) := by
  rw [Matrix.mul_add, Matrix.mul_assoc, Matrix.mul_assoc]

/-- One iteration: the new set is the lowest part of the complete solution in a subspace that contains the old set and the expansion. -/
theorem iteration_some {l : ∀ n, Lapack n} (hl : LapackOK l) {S : Sys B P} (hS : S.OK) {p : Params} {s t : State B P} (hs : Good S s) {done : ℕ} (h : iteration l S p s done = .ok (some t)) :
    Good S t ∧ (dropped S p s done).n ≠ 0 ∧ t.nb = min (nMax p) (s.nb + (dropped S p s done).n) ∧
      ∃ (Q : Matrix B (Fin (s.nb + (dropped S p s done).n)) ℂ) (lam : Fin (s.nb + (dropped S p s done).n) → ℝ), Ritz S Q lam ∧ Within (cat s.C (expansion (dropped S p s done))) Q ∧
        ∀ (b : ℕ) (hb : b < t.nb) (hn : b < s.nb + (dropped S p s done).n), t.eigs ⟨b, hb⟩ = lam ⟨b, hn⟩ := by
  unfold iteration at h
  split at h
  · cases h
  · simp only at h
    split at h
    · cases h
    · rename_i hc
      split at h
      · cases h
      · rename_i U hU
        obtain ⟨hr, hw⟩ := big_ritz hl hS hs.ritz hU
        simp only [Except.ok.injEq, Option.some.injEq] at h
        subst h
        refine ⟨⟨?_, ?_, ?_⟩, hc, rfl, _, _, hr, hw, fun b hb hn => rfl⟩
        · have := ritz_take hr (Nat.min_le_right (nMax p) (s.nb + (dropped S p s done).n))
          rw [cat_mul] at this
          exact this
        · show s.HC * _ + S.H * _ * _ = S.H * (s.C * _ + _ * _)
          rw [hs.hc]
          exact mul_lin _ _ _ _ _
        · show s.V * _ + S.proj * _ * _ = S.proj * (s.C * _ + _ * _)
          rw [hs.v]
          exact mul_lin _ _ _ _ _

theorem within_cat_left (C : Matrix B (Fin n) ℂ) (X : Matrix B (Fin m) ℂ) : Within C (cat C X) := by
  refine ⟨Matrix.of fun i j => Fin.addCases (fun i' => (1 : Matrix (Fin n) (Fin n) ℂ) i' j) (fun _ => 0) i, ?_⟩
  rw [cat_mul]
  have h1 : (Matrix.of fun i j => (Matrix.of fun i j => Fin.addCases (fun i' => (1 : Matrix (Fin n) (Fin n) ℂ) i' j) (fun _ => 0) i : Matrix (Fin (n + m)) (Fin n) ℂ) (Fin.castAdd m i) j : Matrix (Fin n) (Fin n) ℂ) = 1 := by
    ext i j; simp
  have h2 : (Matrix.of fun i j => (Matrix.of fun i j => Fin.addCases (fun i' => (1 : Matrix (Fin n) (Fin n) ℂ) i' j) (fun _ => 0) i : Matrix (Fin (n + m)) (Fin n) ℂ) (Fin.natAdd n i) j : Matrix (Fin m) (Fin n) ℂ) = 0 := by
    ext i j; simp
  rw [h1, h2, Matrix.mul_one, Matrix.mul_zero, add_zero]

theorem Within.trans {n1 n2 n3 : ℕ} {C : Matrix B (Fin n1) ℂ} {D : Matrix B (Fin n2) ℂ} {E : Matrix B (Fin n3) ℂ} (h : Within C D) (h' : Within D E) : Within C E := by
  obtain ⟨Y, rfl⟩ := h
  obtain ⟨Z, rfl⟩ := h'
  exact ⟨Z * Y, Matrix.mul_assoc _ _ _⟩

theorem compact_spec (cut : ℝ) (L : List ℕ) (c : Cols B) (hs : L.Pairwise (· < ·)) (hL : ∀ b ∈ L, c.n ≤ b) :
    (compact cut L c).n = c.n + (L.filter fun b => !decide (c.norm b < cut)).length ∧
      (∀ j < c.n, (compact cut L c).data j = c.data j ∧ (compact cut L c).norm j = c.norm j) ∧
      ∀ i (h : i < (L.filter fun b => !decide (c.norm b < cut)).length),
        (compact cut L c).data (c.n + i) = c.data (L.filter fun b => !decide (c.norm b < cut))[i] ∧
        (compact cut L c).norm (c.n + i) = 1 / Real.sqrt (c.norm (L.filter fun b => !decide (c.norm b < cut))[i]) := by
  induction L generalizing c with
  | nil => simp [compact]
  | cons b t ih =>
    rw [List.pairwise_cons] at hs
    unfold compact
    by_cases hb : c.norm b < cut
    · rw [if_pos hb]
      have := ih c hs.2 fun x hx => hL x (List.mem_cons_of_mem _ hx)
      have hf : ((b :: t).filter fun b => !decide (c.norm b < cut)) = t.filter fun b => !decide (c.norm b < cut) := by simp [hb]
      simp only [hf]
      exact this
    · rw [if_neg hb]
      have hbn := hL b (by simp)
      set c1 : Cols B := ⟨if c.n < b then Function.update c.data c.n (c.data b) else c.data, Function.update c.norm c.n (1 / Real.sqrt (c.norm b)), c.n + 1⟩ with hc1
      have hd1 : c1.data = Function.update c.data c.n (c.data b) := by
        show (if c.n < b then _ else _) = _
        split
        · rfl
        · rw [show b = c.n by omega, Function.update_eq_self]
      have hlater : ∀ x ∈ t, c1.data x = c.data x ∧ c1.norm x = c.norm x := by
        intro x hx
        have : x ≠ c.n := by have := hs.1 x hx; omega
        exact ⟨by rw [hd1, Function.update_of_ne this], Function.update_of_ne this _ _⟩
      obtain ⟨h1, h2, h3⟩ := ih c1 hs.2 fun x hx => by have := hs.1 x hx; show c.n + 1 ≤ x; omega
      have hfe : (t.filter fun b => !decide (c1.norm b < cut)) = t.filter fun b => !decide (c.norm b < cut) := List.filter_congr fun x hx => by rw [(hlater x hx).2]
      simp only [hfe] at h1 h3
      have hf : ((b :: t).filter fun b => !decide (c.norm b < cut)) = b :: t.filter fun b => !decide (c.norm b < cut) := by simp [hb]
      simp only [hf, List.length_cons]
      have hn1 : c1.n = c.n + 1 := rfl
      rw [hn1] at h1 h2 h3
      refine ⟨by omega, fun j hj => ?_, fun i hi => ?_⟩
      · obtain ⟨a1, a2⟩ := h2 j (by omega)
        rw [a1, a2, hd1]
        exact ⟨Function.update_of_ne hj.ne _ _, Function.update_of_ne hj.ne _ _⟩
      · cases i with
        | zero =>
          obtain ⟨a1, a2⟩ := h2 c.n (by omega)
          rw [Nat.add_zero, a1, a2, hd1]
          exact ⟨Function.update_self _ _ _, Function.update_self _ _ _⟩
        | succ i =>
          obtain ⟨a1, a2⟩ := h3 i (by omega)
          rw [show c.n + (i + 1) = c.n + 1 + i by omega, a1, a2]
          have hm : (t.filter fun b => !decide (c.norm b < cut))[i] ∈ t := List.mem_of_mem_filter (List.getElem_mem (by omega))
          rw [(hlater _ hm).1, (hlater _ hm).2]
          exact ⟨rfl, rfl⟩

theorem drop_finRange (n d : ℕ) : (List.finRange n).drop d = (List.finRange n).filter fun b => decide (d ≤ b.val) := by
  apply List.map_injective_iff.2 Fin.val_injective
  rw [List.map_drop, List.map_coe_finRange_eq_range]
  have : ((List.finRange n).filter fun b => decide (d ≤ b.val)).map Fin.val = (List.range n).filter fun b => decide (d ≤ b) := by
    rw [← List.map_coe_finRange_eq_range, List.filter_map]
    rfl
  rw [this]
  rcases le_total d n with h | h
  · obtain ⟨k, rfl⟩ := Nat.exists_eq_add_of_le h
    rw [List.range_add, List.filter_append, List.drop_append, List.length_range, Nat.sub_self, List.drop_zero, List.drop_eq_nil_of_le (by simp), List.nil_append]
    have h1 : (List.range d).filter (fun b => decide (d ≤ b)) = [] := by
      rw [List.filter_eq_nil_iff]
      intro a ha
      have := List.mem_range.1 ha
      simpa using this
    have h2 : (List.map (fun x => d + x) (List.range k)).filter (fun b => decide (d ≤ b)) = List.map (fun x => d + x) (List.range k) := by
      rw [List.filter_eq_self]
      intro a ha
      obtain ⟨x, _, rfl⟩ := List.mem_map.1 ha
      simp
    rw [h1, h2, List.nil_append]
  · rw [List.drop_eq_nil_of_le (by simpa using h)]
    symm
    rw [List.filter_eq_nil_iff]
    intro a ha
    have := List.mem_range.1 ha
    simp
    omega

/-- Bands whose preconditioned residuals are kept. -/
theorem dropped_spec (S : Sys B P) (p : Params) (s : State B P) (done : ℕ) :
    (dropped S p s done).n = (kept S p s done).length ∧ ∀ (i : ℕ) (h : i < (kept S p s done).length),
      (dropped S p s done).data i = (fun a => correction S s a (kept S p s done)[i]) ∧ (dropped S p s done).norm i = 1 / Real.sqrt (normSq (correction S s) (kept S p s done)[i]) := by
  have h := compact_spec (normCut B p s.nb) ((List.range s.nb).drop done)
    ⟨fun b i => if h : b < s.nb then correction S s i ⟨b, h⟩ else 0, fun b => if h : b < s.nb then normSq (correction S s) ⟨b, h⟩ else 0, 0⟩
    (List.Pairwise.sublist (List.drop_sublist _ _) List.pairwise_lt_range) (fun _ _ => Nat.zero_le _)
  have hk : ((List.range s.nb).drop done).filter (fun b => !decide ((if h : b < s.nb then normSq (correction S s) ⟨b, h⟩ else 0) < normCut B p s.nb)) = (kept S p s done).map Fin.val := by
    unfold kept
    rw [← List.map_coe_finRange_eq_range, ← List.map_drop, List.filter_map]
    congr 1
    have hd : (List.finRange s.nb).drop done = (List.finRange s.nb).filter fun b => decide (done ≤ b.val) := drop_finRange _ _
    rw [hd, List.filter_filter]
    refine List.filter_congr fun b _ => ?_
    simp only [Function.comp, b.2, dif_pos]
    rw [Bool.eq_iff_iff]
    simp [and_comm]
  simp only [hk, List.length_map, Nat.zero_add] at h
  refine ⟨h.1, fun i hi => ?_⟩
  obtain ⟨a1, a2⟩ := h.2.2 i hi
  unfold dropped
  rw [a1, a2]
  simp

theorem start_good {l : ∀ n, Lapack n} (hl : LapackOK l) {S : Sys B P} (hS : S.OK) {C : Matrix B (Fin n) ℂ} {V : Matrix P (Fin n) ℂ} (hC : Cᴴ * (S.O * C) = 1) (hV : V = S.proj * C) :
    Good S (start l S C V) := by
  have hA : (Cᴴ * (S.H * C)).IsHermitian := by
    unfold Matrix.IsHermitian
    rw [conjTranspose_mul, conjTranspose_mul, conjTranspose_conjTranspose, hS.herm.eq, Matrix.mul_assoc]
  have he := (hl.ok _).eig _ hA
  have hr : Ritz S (C * ((l n).eig (Cᴴ * (S.H * C))).1) ((l n).eig (Cᴴ * (S.H * C))).2 := by
    have hso := hl.sorted _ _ hA
    generalize ((l n).eig (Cᴴ * (S.H * C))).1 = W at he
    generalize ((l n).eig (Cᴴ * (S.H * C))).2 = ee at he hso
    refine ⟨?_, ?_, hso⟩
    · rw [conjTranspose_mul, Matrix.mul_assoc, ← Matrix.mul_assoc S.O, ← Matrix.mul_assoc Cᴴ, hC, Matrix.one_mul]
      exact he.left
    · rw [conjTranspose_mul, Matrix.mul_assoc, ← Matrix.mul_assoc S.H, ← Matrix.mul_assoc Cᴴ, he.eq, ← Matrix.mul_assoc, he.left, Matrix.one_mul]
  refine ⟨hr, Matrix.mul_assoc _ _ _, ?_⟩
  subst hV
  exact Matrix.mul_assoc _ _ _

end
end Jdftx.Davidson
