import Verif.Spec.DftU
import Verif.Lemmas.PspNonlocal

/-!
# Lemmas for C103
-/
namespace Jdftx.DftU
noncomputable section
open M3 Real
open scoped Matrix
open MatFn (MDeriv re_deriv ofReal_deriv conj_deriv)

variable {nA no nb nG nq ns : ℕ}

theorem MDeriv.sub {m n : Type*} {A B : ℝ → Matrix m n ℂ} {A' B' : Matrix m n ℂ} {t : ℝ} (hA : MDeriv A A' t) (hB : MDeriv B B' t) : MDeriv (fun t => A t - B t) (A' - B') t :=
  fun i j => (hA i j).sub (hB i j)

theorem MDeriv.add {m n : Type*} {A B : ℝ → Matrix m n ℂ} {A' B' : Matrix m n ℂ} {t : ℝ} (hA : MDeriv A A' t) (hB : MDeriv B B' t) : MDeriv (fun t => A t + B t) (A' + B') t :=
  fun i j => (hA i j).add (hB i j)

theorem MDeriv.smul {m n : Type*} {A : ℝ → Matrix m n ℂ} {A' : Matrix m n ℂ} {t : ℝ} (c : ℂ) (hA : MDeriv A A' t) : MDeriv (fun t => c • A t) (c • A') t :=
  fun i j => (hA i j).const_mul c

theorem MDeriv.sum {m n ι : Type*} (s : Finset ι) {A : ι → ℝ → Matrix m n ℂ} {A' : ι → Matrix m n ℂ} {t : ℝ} (hA : ∀ k, MDeriv (A k) (A' k) t) : MDeriv (fun t => ∑ k ∈ s, A k t) (∑ k ∈ s, A' k) t := by
  intro i j
  simp only [Matrix.sum_apply]
  exact HasDerivAt.fun_sum fun k _ => hA k i j

/-! ### Symmetries -/

theorem transform_mul (o o' : Op nA no) : transform (⟨o.map ∘ o'.map, o.rot * o'.rot⟩ : Op nA no) = transform o * transform o' := by
  ext x y
  simp only [transform, Matrix.of_apply, Matrix.mul_apply, Fintype.sum_prod_type, Function.comp]
  rw [Finset.sum_eq_single (o'.map y.1)]
  · simp only [if_true]
    split
    · rfl
    · simp
  · intro a _ ha
    simp [ha]
  · intro h; exact absurd (Finset.mem_univ _) h

theorem transform_unitary (o : Op nA no) (hb : Function.Injective o.map) (hu : o.rotᴴ * o.rot = 1) : (transform o)ᴴ * transform o = 1 := by
  ext x y
  simp only [transform, Matrix.of_apply, Matrix.mul_apply, Matrix.conjTranspose_apply, Fintype.sum_prod_type]
  rw [Finset.sum_eq_single (o.map x.1)]
  · simp only [if_true]
    by_cases h : x.1 = y.1
    · have h2 := congrFun (congrFun hu x.2) y.2
      rw [Matrix.mul_apply] at h2
      simp only [Matrix.conjTranspose_apply] at h2
      simp only [h, if_true, h2, Matrix.one_apply, Prod.ext_iff, true_and]
    · have h3 : ¬ o.map x.1 = o.map y.1 := fun hh => h (hb hh)
      simp only [if_neg h3, mul_zero, Finset.sum_const_zero, Matrix.one_apply]
      rw [if_neg]
      exact fun hh => h (congrArg Prod.fst hh)
  · intro a _ ha
    simp [ha]
  · intro h; exact absurd (Finset.mem_univ _) h

theorem list_mul_sum (m : Matrix (Ix nA no) (Ix nA no) ℂ) (l : List (Matrix (Ix nA no) (Ix nA no) ℂ)) : m * l.sum = (l.map fun x => m * x).sum := by
  induction l with
  | nil => simp
  | cons x l ih => simp [Matrix.mul_add, ih]

theorem list_sum_mul (m : Matrix (Ix nA no) (Ix nA no) ℂ) (l : List (Matrix (Ix nA no) (Ix nA no) ℂ)) : l.sum * m = (l.map fun x => x * m).sum := by
  induction l with
  | nil => simp
  | cons x l ih => simp [Matrix.add_mul, ih]

/-- The symmetrized matrix commutes with the operations. -/
theorem sym_comm (p : Params nA no) (hs : SymOK p) (hl : ¬(p.l = 0 ∨ p.ops.length = 1)) (X : Matrix (Ix nA no) (Ix nA no) ℂ) (o : Op nA no) (ho : o ∈ p.ops) :
    transform o * symmetrize p X = symmetrize p X * transform o := by
  unfold symmetrize
  rw [if_neg hl, Matrix.mul_smul, Matrix.smul_mul]
  congr 1
  rw [list_mul_sum, list_sum_mul, List.map_map, List.map_map]
  have hu := transform_unitary o (hs.bij o ho).1 (hs.unitary o ho)
  have h1 := ((hs.closed o ho).map fun o' => transform o' * X * (transform o')ᴴ * transform o).sum_eq
  rw [List.map_map] at h1
  show _ = (p.ops.map fun o' => transform o' * X * (transform o')ᴴ * transform o).sum
  rw [← h1]
  congr 1
  refine List.map_congr_left fun o' _ => ?_
  simp only [Function.comp]
  rw [show transform (⟨o.map ∘ o'.map, o.rot * o'.rot⟩ : Op nA no) = transform o * transform o' from transform_mul o o']
  simp only [Matrix.conjTranspose_mul, Matrix.mul_assoc, hu, Matrix.mul_one]

theorem block_comm (o : Op nA no) (hb : Function.Injective o.map) (X : Matrix (Ix nA no) (Ix nA no) ℂ) (h : transform o * X = X * transform o) (a : Fin nA) :
    o.rot * block X a = block X (o.map a) * o.rot := by
  ext m m'
  have h1 := congrFun (congrFun h (o.map a, m)) (a, m')
  simp only [Matrix.mul_apply, Fintype.sum_prod_type, transform, Matrix.of_apply] at h1
  rw [Finset.sum_eq_single a, Finset.sum_eq_single (o.map a)] at h1
  · simpa [Matrix.mul_apply, block] using h1
  · intro b _ hb'; simp [hb']
  · intro hh; exact absurd (Finset.mem_univ _) hh
  · intro b _ hb'
    have : ¬ o.map a = o.map b := fun hh => hb' (hb hh).symm
    simp [this]
  · intro hh; exact absurd (Finset.mem_univ _) hh

theorem pack_comm (o : Op nA no) (U : Fin nA → Matrix (Fin no) (Fin no) ℂ) (h : ∀ a, o.rot * U a = U (o.map a) * o.rot) : pack U * transform o = transform o * pack U := by
  ext x y
  simp only [Matrix.mul_apply, Fintype.sum_prod_type, transform, pack, Matrix.of_apply]
  rw [Finset.sum_eq_single x.1, Finset.sum_eq_single y.1]
  · simp only [if_true]
    by_cases hxy : x.1 = o.map y.1
    · simp only [hxy, if_true]
      have := congrFun (congrFun (h y.1) x.2) y.2
      simpa [Matrix.mul_apply] using this.symm
    · simp [hxy]
  · intro b _ hb; simp [hb]
  · intro hh; exact absurd (Finset.mem_univ _) hh
  · intro b _ hb; simp [Ne.symm hb]
  · intro hh; exact absurd (Finset.mem_univ _) hh

theorem trace_pack (U : Fin nA → Matrix (Fin no) (Fin no) ℂ) (Y : Matrix (Ix nA no) (Ix nA no) ℂ) : Matrix.trace (pack U * Y) = ∑ a, Matrix.trace (U a * block Y a) := by
  simp only [Matrix.trace, Matrix.diag, Matrix.mul_apply, Fintype.sum_prod_type, pack, block, Matrix.of_apply]
  refine Finset.sum_congr rfl fun a _ => Finset.sum_congr rfl fun o _ => ?_
  rw [Finset.sum_eq_single a]
  · simp
  · intro b _ hb; simp [Ne.symm hb]
  · intro hh; exact absurd (Finset.mem_univ _) hh

/-- Inner products of a matrix with the symmetry do not change under symmetrization. -/
theorem trace_sym (p : Params nA no) (hs : ¬(p.l = 0 ∨ p.ops.length = 1) → SymOK p) (B Z : Matrix (Ix nA no) (Ix nA no) ℂ) (hB : ¬(p.l = 0 ∨ p.ops.length = 1) → ∀ o ∈ p.ops, B * transform o = transform o * B) :
    Matrix.trace (B * symmetrize p Z) = Matrix.trace (B * Z) := by
  unfold symmetrize
  split
  · rfl
  · rename_i hl
    have hs := hs hl
    rw [Matrix.mul_smul, Matrix.trace_smul, list_mul_sum, List.map_map]
    have key : ∀ l : List (Op nA no), (∀ o ∈ l, o ∈ p.ops) → Matrix.trace ((l.map ((fun x => B * x) ∘ fun o => transform o * Z * (transform o)ᴴ)).sum) = (l.length : ℂ) * Matrix.trace (B * Z) := by
      intro l
      induction l with
      | nil => simp
      | cons o l ih =>
        intro h
        have ho := h o (List.mem_cons_self ..)
        rw [List.map_cons, List.sum_cons, Matrix.trace_add, ih fun o' h' => h o' (List.mem_cons_of_mem _ h')]
        have e : Matrix.trace (B * (transform o * Z * (transform o)ᴴ)) = Matrix.trace (B * Z) := by
          rw [Matrix.mul_assoc, ← Matrix.mul_assoc B, hB hl o ho, ← Matrix.mul_assoc, Matrix.trace_mul_comm, ← Matrix.mul_assoc, ← Matrix.mul_assoc,
            transform_unitary o (hs.bij o ho).1 (hs.unitary o ho), Matrix.one_mul]
        simp only [Function.comp]
        rw [e, List.length_cons]
        push_cast
        ring
    rw [key p.ops fun o h => h, smul_eq_mul]
    have : (p.ops.length : ℂ) ≠ 0 := by
      have := List.length_pos_of_ne_nil hs.ne
      exact_mod_cast this.ne'
    push_cast
    field_simp

theorem sym_deriv (p : Params nA no) (X : ℝ → Matrix (Ix nA no) (Ix nA no) ℂ) (X' : Matrix (Ix nA no) (Ix nA no) ℂ) (h : MDeriv X X' 0) : MDeriv (fun t => symmetrize p (X t)) (symmetrize p X') 0 := by
  unfold symmetrize
  split
  · exact h
  · refine MDeriv.smul _ ?_
    have key : ∀ l : List (Op nA no), MDeriv (fun t => (l.map fun o => transform o * X t * (transform o)ᴴ).sum) (l.map fun o => transform o * X' * (transform o)ᴴ).sum 0 := by
      intro l
      induction l with
      | nil => exact MDeriv.const _ _
      | cons o l ih =>
        simp only [List.map_cons, List.sum_cons]
        refine MDeriv.add ?_ ih
        have := ((MDeriv.const (transform o) 0).mul h).mul (MDeriv.const ((transform o)ᴴ) 0)
        simpa using this
    exact key p.ops

theorem sym_hermitian (p : Params nA no) (X : Matrix (Ix nA no) (Ix nA no) ℂ) (h : X.IsHermitian) : (symmetrize p X).IsHermitian := by
  unfold symmetrize
  split
  · exact h
  · have key : ∀ l : List (Op nA no), ((l.map fun o => transform o * X * (transform o)ᴴ).sum).IsHermitian := by
      intro l
      induction l with
      | nil => exact Matrix.isHermitian_zero
      | cons o l ih =>
        rw [List.map_cons, List.sum_cons]
        refine Matrix.IsHermitian.add ?_ ih
        unfold Matrix.IsHermitian
        simp only [Matrix.conjTranspose_mul, Matrix.conjTranspose_conjTranspose, h.eq, Matrix.mul_assoc]
    unfold Matrix.IsHermitian
    rw [Matrix.conjTranspose_smul, (key p.ops).eq]
    simp

theorem grad_hermitian (p : Params nA no) (X : Matrix (Ix nA no) (Ix nA no) ℂ) (h : X.IsHermitian) : (pack fun a => gradU p a (block X a)).IsHermitian := by
  unfold Matrix.IsHermitian
  ext x y
  simp only [Matrix.conjTranspose_apply, pack, Matrix.of_apply]
  by_cases hxy : x.1 = y.1
  · have hx : star (X (y.1, y.2) (y.1, x.2)) = X (y.1, x.2) (y.1, y.2) := congrFun (congrFun h.eq (y.1, x.2)) (y.1, y.2)
    simp only [hxy, if_true, gradU, block, Matrix.sub_apply, Matrix.smul_apply, Matrix.of_apply, smul_eq_mul, star_sub, star_mul', hx, Complex.star_def, Complex.conj_ofReal]
    congr 2
    simp only [Matrix.one_apply]
    by_cases h2 : x.2 = y.2
    · simp [h2]
    · simp [h2, Ne.symm h2]
  · simp [hxy, Ne.symm hxy]

/-! ### Derivatives -/

theorem block_deriv (X : ℝ → Matrix (Ix nA no) (Ix nA no) ℂ) (X' : Matrix (Ix nA no) (Ix nA no) ℂ) (h : MDeriv X X' 0) (a : Fin nA) : MDeriv (fun t => block (X t) a) (block X' a) 0 :=
  fun _ _ => h _ _

theorem blocks_deriv (p : Params nA no) (X : ℝ → Matrix (Ix nA no) (Ix nA no) ℂ) (X' : Matrix (Ix nA no) (Ix nA no) ℂ) (h : MDeriv X X' 0) :
    HasDerivAt (fun t => ∑ a, (Matrix.trace (((VextPrefac p a + Uprefac p : ℝ) : ℂ) • block (X t) a - ((Uprefac p : ℝ) : ℂ) • (block (X t) a * block (X t) a))).re)
      (Matrix.trace (pack (fun a => gradU p a (block (X 0) a)) * X')).re 0 := by
  rw [trace_pack, Complex.re_sum]
  refine HasDerivAt.fun_sum fun a _ => ?_
  have hb := block_deriv X X' h a
  have h1 := (MDeriv.sub (MDeriv.smul ((VextPrefac p a + Uprefac p : ℝ) : ℂ) hb) (MDeriv.smul ((Uprefac p : ℝ) : ℂ) (hb.mul hb))).re_trace
  refine h1.congr_deriv ?_
  congr 1
  simp only [gradU, Matrix.sub_mul, Matrix.smul_mul, Matrix.one_mul, Matrix.trace_sub, Matrix.trace_smul, Matrix.trace_add, smul_eq_mul]
  rw [Matrix.trace_mul_comm (block X' a)]
  push_cast
  ring

/-- Density matrices from projections. -/
def rhoOf (p : Params nA no) (st : Fin nq → State nb nG ns) (P : Fin nq → Matrix (Ix nA no) (Fin nb) ℂ) (s : Fin ns) : Matrix (Ix nA no) (Ix nA no) ℂ :=
  ∑ q, if (st q).spin = s then ((((st q).w / p.spinWeight : ℝ) : ℂ)) • (P q * fill (st q) * (P q)ᴴ) else 0

theorem rhoOf_hermitian (p : Params nA no) (st : Fin nq → State nb nG ns) (P : Fin nq → Matrix (Ix nA no) (Fin nb) ℂ) (s : Fin ns) : (rhoOf p st P s).IsHermitian := by
  unfold Matrix.IsHermitian rhoOf
  rw [Matrix.conjTranspose_sum]
  refine Finset.sum_congr rfl fun q _ => ?_
  split
  · have hF : (fill (st q))ᴴ = fill (st q) := (Psp.diag_hermitian (st q).F).eq
    simp only [Matrix.conjTranspose_smul, Matrix.conjTranspose_mul, Matrix.conjTranspose_conjTranspose, hF, Matrix.mul_assoc, Complex.star_def, Complex.conj_ofReal]
  · exact Matrix.conjTranspose_zero

/-- The gradients commute with the symmetries. -/
theorem grad_comm (p : Params nA no) (hs : SymOK p) (hl : ¬(p.l = 0 ∨ p.ops.length = 1)) (X : Matrix (Ix nA no) (Ix nA no) ℂ) (o : Op nA no) (ho : o ∈ p.ops) :
    pack (fun a => gradU p a (block (symmetrize p X) a)) * transform o = transform o * pack (fun a => gradU p a (block (symmetrize p X) a)) := by
  refine pack_comm o _ fun a => ?_
  have hb := block_comm o (hs.bij o ho).1 _ (sym_comm p hs hl X o ho) a
  simp only [gradU, Matrix.mul_sub, Matrix.sub_mul, Matrix.mul_smul, Matrix.smul_mul, Matrix.mul_one, Matrix.one_mul, hb, VextPrefac, hs.Vext o ho a]

theorem core_deriv (p : Params nA no) (hs : ¬(p.l = 0 ∨ p.ops.length = 1) → SymOK p) (st : Fin nq → State nb nG ns) (P : Fin nq → ℝ → Matrix (Ix nA no) (Fin nb) ℂ)
    (P' : Fin nq → Matrix (Ix nA no) (Fin nb) ℂ) (h : ∀ q, MDeriv (P q) (P' q) 0) :
    HasDerivAt (fun t => energyU p fun s a => block (symmetrize p (rhoOf p st (fun q => P q t) s)) a)
      (∑ q, 2 * (st q).w / p.spinWeight * (Matrix.trace (pack (fun a => gradU p a (block (symmetrize p (rhoOf p st (fun q => P q 0) (st q).spin)) a)) * P q 0 * fill (st q) * (P' q)ᴴ)).re) 0 := by
  have hr : ∀ s, MDeriv (fun t => rhoOf p st (fun q => P q t) s)
      (∑ q, if (st q).spin = s then ((((st q).w / p.spinWeight : ℝ) : ℂ)) • (P' q * fill (st q) * (P q 0)ᴴ + P q 0 * fill (st q) * (P' q)ᴴ) else 0) 0 := by
    intro s
    unfold rhoOf
    refine MDeriv.sum _ fun q => ?_
    by_cases hq : (st q).spin = s
    · simp only [hq, if_true]
      refine MDeriv.smul _ ?_
      have := ((h q).mul (MDeriv.const (fill (st q)) 0)).mul (h q).dagger
      simpa using this
    · simp only [hq, if_false]
      exact MDeriv.const _ _
  have h1 : ∀ s ∈ Finset.univ, HasDerivAt (fun t => ∑ a, (Matrix.trace (((VextPrefac p a + Uprefac p : ℝ) : ℂ) • block (symmetrize p (rhoOf p st (fun q => P q t) s)) a
      - ((Uprefac p : ℝ) : ℂ) • (block (symmetrize p (rhoOf p st (fun q => P q t) s)) a * block (symmetrize p (rhoOf p st (fun q => P q t) s)) a))).re) _ 0 :=
    fun s _ => blocks_deriv p _ _ (sym_deriv p _ _ (hr s))
  refine (HasDerivAt.fun_sum h1).congr_deriv ?_
  have e1 : ∀ s, (Matrix.trace (pack (fun a => gradU p a (block (symmetrize p (rhoOf p st (fun q => P q 0) s)) a)) * symmetrize p (∑ q, if (st q).spin = s then ((((st q).w / p.spinWeight : ℝ) : ℂ)) • (P' q * fill (st q) * (P q 0)ᴴ + P q 0 * fill (st q) * (P' q)ᴴ) else 0))).re
      = ∑ q, if (st q).spin = s then 2 * (st q).w / p.spinWeight * (Matrix.trace (pack (fun a => gradU p a (block (symmetrize p (rhoOf p st (fun q => P q 0) s)) a)) * P q 0 * fill (st q) * (P' q)ᴴ)).re else 0 := by
    intro s
    rw [trace_sym p hs _ _ fun hl o ho => grad_comm p (hs hl) hl _ o ho, Matrix.mul_sum, Matrix.trace_sum, Complex.re_sum]
    refine Finset.sum_congr rfl fun q _ => ?_
    split
    · have hB := grad_hermitian p _ (sym_hermitian p _ (rhoOf_hermitian p st (fun q => P q 0) s))
      generalize pack (fun a => gradU p a (block (symmetrize p (rhoOf p st (fun q => P q 0) s)) a)) = B at hB ⊢
      have hF : (fill (st q))ᴴ = fill (st q) := (Psp.diag_hermitian (st q).F).eq
      rw [Matrix.mul_smul, Matrix.trace_smul, smul_eq_mul, Complex.re_ofReal_mul, Matrix.mul_add, Matrix.trace_add, Complex.add_re]
      have e2 : (Matrix.trace (B * (P' q * fill (st q) * (P q 0)ᴴ))).re = (Matrix.trace (B * P q 0 * fill (st q) * (P' q)ᴴ)).re := by
        have : ∀ A : Matrix (Ix nA no) (Ix nA no) ℂ, (Matrix.trace Aᴴ).re = (Matrix.trace A).re := fun A => by rw [Matrix.trace_conjTranspose]; simp
        rw [← this]
        simp only [Matrix.conjTranspose_mul, Matrix.conjTranspose_conjTranspose, hF, hB.eq]
        rw [Matrix.trace_mul_comm]
        simp only [Matrix.mul_assoc]
      rw [e2]
      simp only [← Matrix.mul_assoc]
      ring
    · simp
  simp only [e1]
  rw [Finset.sum_comm]
  refine Finset.sum_congr rfl fun q _ => ?_
  simp

theorem nl_ok (p : Params nA no) (hp : ∀ o, (p.orb o).OK) (st : State nb nG ns) : (nl p st).OK where
  proj := hp
  M := Matrix.isHermitian_zero
  Q := fun Q h => by cases h
  overlap := Matrix.isHermitian_zero

theorem transform_block (o : Op nA no) (hb : Function.Injective o.map) (X : Matrix (Ix nA no) (Ix nA no) ℂ) (a b : Fin nA) (m m' : Fin no) :
    (transform o * X * (transform o)ᴴ) (o.map a, m) (o.map b, m') = ∑ n, ∑ n', o.rot m n * X (a, n) (b, n') * star (o.rot m' n') := by
  simp only [Matrix.mul_apply, Fintype.sum_prod_type, transform, Matrix.of_apply, Matrix.conjTranspose_apply]
  rw [Finset.sum_eq_single b]
  · simp only [if_true, Finset.sum_mul]
    conv_rhs => rw [Finset.sum_comm]
    refine Finset.sum_congr rfl fun n' _ => ?_
    rw [Finset.sum_eq_single a]
    · simp only [if_true]
    · intro c _ hc
      have : ¬ o.map a = o.map c := fun hh => hc (hb hh).symm
      simp [this]
    · intro hh; exact absurd (Finset.mem_univ _) hh
  · intro c _ hc
    have : ¬ o.map b = o.map c := fun hh => hc (hb hh).symm
    simp [this]
  · intro hh; exact absurd (Finset.mem_univ _) hh

theorem block_transform (o : Op nA no) (hb : Function.Injective o.map) (X : Matrix (Ix nA no) (Ix nA no) ℂ) (a : Fin nA) :
    block (transform o * X * (transform o)ᴴ) (o.map a) = o.rot * block X a * o.rotᴴ := by
  ext m m'
  simp only [block, Matrix.of_apply]
  rw [transform_block o hb]
  simp only [Matrix.mul_apply, Matrix.of_apply, Matrix.conjTranspose_apply, Finset.sum_mul]
  rw [Finset.sum_comm]

theorem energy_rotation (p : Params nA no) (D : Matrix (Fin no) (Fin no) ℂ) (hD : Dᴴ * D = 1) (rho : Fin ns → Fin nA → Matrix (Fin no) (Fin no) ℂ) :
    energyU p (fun s a => D * rho s a * Dᴴ) = energyU p rho := by
  unfold energyU
  refine Finset.sum_congr rfl fun s _ => Finset.sum_congr rfl fun a _ => ?_
  have e1 : ∀ X : Matrix (Fin no) (Fin no) ℂ, Matrix.trace (D * X * Dᴴ) = Matrix.trace X := fun X => by
    rw [Matrix.trace_mul_comm, ← Matrix.mul_assoc, hD, Matrix.one_mul]
  have e2 : D * rho s a * Dᴴ * (D * rho s a * Dᴴ) = D * (rho s a * rho s a) * Dᴴ := by
    calc D * rho s a * Dᴴ * (D * rho s a * Dᴴ) = D * rho s a * (Dᴴ * D) * rho s a * Dᴴ := by simp only [Matrix.mul_assoc]
      _ = _ := by rw [hD]; simp only [Matrix.mul_one, Matrix.mul_assoc]
  rw [e2, Matrix.trace_sub, Matrix.trace_sub, Matrix.trace_smul, Matrix.trace_smul, Matrix.trace_smul, Matrix.trace_smul, e1, e1]

/-! ### Stress -/

/-- Orbitals with other wave vectors but the same phases. -/
def opsiAt (p : Params nA no) (st : State nb nG ns) (pos : Fin nA → V3 ℝ) (q : Fin nG → V3 ℝ) : Matrix (Fin nG) (Ix nA no) ℂ :=
  Matrix.of fun i x => Psp.vnlAt (nl p st) (pos x.1) q i x.2

theorem opsi_at (p : Params nA no) (st : State nb nG ns) (G : Mat ℝ) (pos : Fin nA → V3 ℝ) : opsi p st G pos = opsiAt p st pos (Psp.qvec (nl p st) G) := rfl

theorem opsiAt_deriv (p : Params nA no) (hp : ∀ o, (p.orb o).OK) (st : State nb nG ns) (G : Mat ℝ) (pos : Fin nA → V3 ℝ) (e : Mat ℝ) (q : ℝ → Fin nG → V3 ℝ) (hq : q 0 = Psp.qvec (nl p st) G)
    (h0 : ∀ i, q 0 i = 0 → ∀ t, q t i = 0) (h : ∀ i k, HasDerivAt (fun t => q t i k) (-mulVM (q 0 i) e k) 0) :
    MDeriv (fun t => opsiAt p st pos (q t)) (∑ i, ∑ j, (e i j : ℂ) • opsiStress p st G pos i j) 0 := by
  intro m x
  have := Psp.vnlAt_deriv (nl p st) (nl_ok p hp st) G (pos x.1) e q hq h0 h m x.2
  simp only [opsiAt, Matrix.of_apply]
  refine this.congr_deriv ?_
  simp only [Matrix.sum_apply, Matrix.smul_apply, opsiStress, Matrix.of_apply]

theorem curve_deriv (p : Params nA no) (hp : ∀ o, (p.orb o).OK) (hs : ¬(p.l = 0 ∨ p.ops.length = 1) → SymOK p) (st : Fin nq → State nb nG ns) (R : Mat ℝ) (pos : Fin nA → V3 ℝ) (e : Mat ℝ)
    (q : Fin nq → ℝ → Fin nG → V3 ℝ) (hq : ∀ k, q k 0 = Psp.qvec (nl p (st k)) (Basis.G R))
    (h0 : ∀ k i, q k 0 i = 0 → ∀ t, q k t i = 0) (h : ∀ k i j, HasDerivAt (fun t => q k t i j) (-mulVM (q k 0 i) e j) 0) :
    HasDerivAt (fun t => energyU p fun s a => block (symmetrize p (rhoOf p st (fun k => (opsiAt p (st k) pos (q k t))ᴴ * (st k).C) s)) a)
      (∑ i, ∑ j, (∑ k, stressIJ p (st k) R pos (grads p st (Basis.G R) pos) i j) * e i j) 0 := by
  have hP : ∀ k, MDeriv (fun t => (opsiAt p (st k) pos (q k t))ᴴ * (st k).C) ((∑ i, ∑ j, (e i j : ℂ) • opsiStress p (st k) (Basis.G R) pos i j)ᴴ * (st k).C) 0 := by
    intro k
    have := (opsiAt_deriv p hp (st k) (Basis.G R) pos e (q k) (hq k) (h0 k) (h k)).dagger.mul (MDeriv.const (st k).C 0)
    simpa using this
  refine (core_deriv p hs st _ _ hP).congr_deriv ?_
  have e0 : (fun k => (opsiAt p (st k) pos (q k 0))ᴴ * (st k).C) = fun k => proj p (st k) (Basis.G R) pos := by
    funext k; rw [hq k]; rfl
  have e0' : ∀ k, (opsiAt p (st k) pos (q k 0))ᴴ * (st k).C = proj p (st k) (Basis.G R) pos := fun k => congrFun e0 k
  simp only [e0']
  have e1 : ∀ k, 2 * (st k).w / p.spinWeight * (Matrix.trace (pack (fun a => gradU p a (block (symmetrize p (rhoOf p st (fun k => proj p (st k) (Basis.G R) pos) (st k).spin)) a)) * proj p (st k) (Basis.G R) pos
      * fill (st k) * ((∑ i, ∑ j, (e i j : ℂ) • opsiStress p (st k) (Basis.G R) pos i j)ᴴ * (st k).C)ᴴ)).re = ∑ i, ∑ j, stressIJ p (st k) R pos (grads p st (Basis.G R) pos) i j * e i j := by
    intro k
    have eg : (fun a => gradU p a (block (symmetrize p (rhoOf p st (fun k => proj p (st k) (Basis.G R) pos) (st k).spin)) a)) = grads p st (Basis.G R) pos (st k).spin := rfl
    rw [eg]
    simp only [Matrix.conjTranspose_mul, Matrix.conjTranspose_conjTranspose, Matrix.mul_sum, Matrix.trace_sum, Matrix.mul_smul, Matrix.trace_smul,
      Complex.re_sum, smul_eq_mul, Complex.re_ofReal_mul, Finset.mul_sum]
    refine Finset.sum_congr rfl fun i _ => Finset.sum_congr rfl fun j _ => ?_
    simp only [stressIJ]
    ring
  simp only [e1, Finset.sum_mul]
  rw [Finset.sum_comm]
  refine Finset.sum_congr rfl fun i _ => ?_
  rw [Finset.sum_comm]

theorem opsiAt_rot (p : Params nA no) (st : State nb nG ns) (pos : Fin nA → V3 ℝ) (q : Fin nG → V3 ℝ) (U : Mat ℝ) (D : Matrix (Fin no) (Fin no) ℝ)
    (h : ∀ q o, Psp.prefac (p.orb o) (mulMV U q) = ∑ o', D o o' * Psp.prefac (p.orb o') q) :
    opsiAt p st pos (fun i => mulMV U (q i)) = opsiAt p st pos q * (transform (⟨id, D.map Complex.ofReal⟩ : Op nA no))ᴴ := by
  ext i x
  simp only [opsiAt, Psp.vnlAt, Matrix.of_apply, Matrix.mul_apply, Fintype.sum_prod_type, Matrix.conjTranspose_apply, transform, id]
  rw [Finset.sum_eq_single x.1]
  · simp only [if_true, Matrix.map_apply]
    have e : (nl p st).proj = p.orb := rfl
    rw [e, h, Complex.ofReal_sum, Finset.sum_mul]
    refine Finset.sum_congr rfl fun o _ => ?_
    simp only [Complex.star_def, Complex.conj_ofReal]
    push_cast
    ring
  · intro b _ hb; simp [Ne.symm hb]
  · intro hh; exact absurd (Finset.mem_univ _) hh

theorem energy_rot (p : Params nA no) (hp : Shell p.orb) (hs : p.l = 0 ∨ p.ops.length = 1) (st : Fin nq → State nb nG ns) (pos : Fin nA → V3 ℝ) (q : Fin nq → Fin nG → V3 ℝ) (U : Mat ℝ) (hU : Psp.Orth U) :
    (energyU p fun s a => block (symmetrize p (rhoOf p st (fun k => (opsiAt p (st k) pos fun i => mulMV U (q k i))ᴴ * (st k).C) s)) a)
      = energyU p fun s a => block (symmetrize p (rhoOf p st (fun k => (opsiAt p (st k) pos (q k))ᴴ * (st k).C) s)) a := by
  obtain ⟨D, hD, h⟩ := hp U hU
  have hDc : (D.map Complex.ofReal)ᴴ * D.map Complex.ofReal = 1 := by
    ext i j
    have := congrFun (congrFun hD i) j
    simp only [Matrix.mul_apply, Matrix.transpose_apply] at this
    simp only [Matrix.mul_apply, Matrix.conjTranspose_apply, Matrix.map_apply, Complex.star_def, Complex.conj_ofReal, ← Complex.ofReal_mul, ← Complex.ofReal_sum, this]
    simp only [Matrix.one_apply]
    split <;> simp
  rw [← energy_rotation p _ hDc fun s a => block (symmetrize p (rhoOf p st (fun k => (opsiAt p (st k) pos (q k))ᴴ * (st k).C) s)) a]
  congr 1
  funext s a
  have e1 : rhoOf p st (fun k => (opsiAt p (st k) pos fun i => mulMV U (q k i))ᴴ * (st k).C) s
      = transform (⟨id, D.map Complex.ofReal⟩ : Op nA no) * rhoOf p st (fun k => (opsiAt p (st k) pos (q k))ᴴ * (st k).C) s * (transform (⟨id, D.map Complex.ofReal⟩ : Op nA no))ᴴ := by
    unfold rhoOf
    rw [Matrix.mul_sum, Matrix.sum_mul]
    refine Finset.sum_congr rfl fun k _ => ?_
    split
    · beta_reduce
      rw [opsiAt_rot p (st k) pos (q k) U D h]
      simp only [Matrix.conjTranspose_mul, Matrix.conjTranspose_conjTranspose, Matrix.mul_smul, Matrix.smul_mul, Matrix.mul_assoc]
    · simp
  simp only [symmetrize, if_pos hs]
  rw [e1]
  exact block_transform (⟨id, D.map Complex.ofReal⟩ : Op nA no) Function.injective_id _ a

theorem rot_zero (p : Params nA no) (hp : ∀ o, (p.orb o).OK) (hsh : Shell p.orb) (hs : p.l = 0 ∨ p.ops.length = 1) (st : Fin nq → State nb nG ns) (R : Mat ℝ) (pos : Fin nA → V3 ℝ) (e : Mat ℝ) (U : ℝ → Mat ℝ)
    (hU : ∀ t, Psp.Orth (U t)) (hU0 : ∀ q, mulMV (U 0) q = q) (hd : ∀ q k, HasDerivAt (fun t => mulMV (U t) q k) (-mulVM q e k) 0) :
    ∑ i, ∑ j, (∑ k, stressIJ p (st k) R pos (grads p st (Basis.G R) pos) i j) * e i j = 0 := by
  have h := curve_deriv p hp (fun h => absurd hs h) st R pos e (fun k t i => mulMV (U t) (Psp.qvec (nl p (st k)) (Basis.G R) i)) (fun k => funext fun i => hU0 _)
    (fun k i hi t => by rw [hU0] at hi; rw [hi]; funext k; simp [mulMV]) (fun k i j => by rw [hU0]; exact hd _ j)
  have e1 : (fun t => energyU p fun s a => block (symmetrize p (rhoOf p st (fun k => (opsiAt p (st k) pos fun i => mulMV (U t) (Psp.qvec (nl p (st k)) (Basis.G R) i))ᴴ * (st k).C) s)) a)
      = fun _ => energyU p fun s a => block (symmetrize p (rhoOf p st (fun k => (opsiAt p (st k) pos (Psp.qvec (nl p (st k)) (Basis.G R)))ᴴ * (st k).C) s)) a := by
    funext t
    exact energy_rot p hsh hs st pos _ (U t) (hU t)
  rw [e1] at h
  exact h.unique (hasDerivAt_const _ _)

theorem stress_symm (p : Params nA no) (hp : ∀ o, (p.orb o).OK) (hsh : Shell p.orb) (hs : p.l = 0 ∨ p.ops.length = 1) (st : Fin nq → State nb nG ns) (R : Mat ℝ) (pos : Fin nA → V3 ℝ) (S : Fin 3 → Fin 3 → ℝ)
    (hS : ∀ i j, S i j = ∑ k, stressIJ p (st k) R pos (grads p st (Basis.G R) pos) i j) : S 2 1 = S 1 2 ∧ S 0 2 = S 2 0 ∧ S 1 0 = S 0 1 := by
  have hsn := (hasDerivAt_sin 0).congr_deriv cos_zero
  have hco := (hasDerivAt_cos 0).congr_deriv (by simp : -sin (0 : ℝ) = 0)
  refine ⟨?_, ?_, ?_⟩
  · have h := rot_zero p hp hsh hs st R pos (ofCols (vec 0 0 0) (vec 0 0 1) (vec 0 (-1) 0)) Psp.rotX Psp.rotX_orth
      (fun q => by funext k; fin_cases k <;> simp [mulMV, Psp.rotX, ofCols, vec])
      (fun q k => by
        fin_cases k <;> simp [mulMV, mulVM, Psp.rotX, ofCols, vec]
        · exact hasDerivAt_const _ _
        · exact ((hco.mul_const (q 1)).add (hsn.mul_const (q 2)).neg).congr_deriv (by ring)
        · exact ((hsn.mul_const (q 1)).add (hco.mul_const (q 2))).congr_deriv (by ring))
    simp only [← hS] at h
    simp [Fin.sum_univ_three, ofCols, vec] at h
    linarith
  · have h := rot_zero p hp hsh hs st R pos (ofCols (vec 0 0 (-1)) (vec 0 0 0) (vec 1 0 0)) Psp.rotY Psp.rotY_orth
      (fun q => by funext k; fin_cases k <;> simp [mulMV, Psp.rotY, ofCols, vec])
      (fun q k => by
        fin_cases k <;> simp [mulMV, mulVM, Psp.rotY, ofCols, vec]
        · exact ((hco.mul_const (q 0)).add (hsn.mul_const (q 2))).congr_deriv (by ring)
        · exact hasDerivAt_const _ _
        · exact ((hsn.mul_const (q 0)).neg.add (hco.mul_const (q 2))).congr_deriv (by ring))
    simp only [← hS] at h
    simp [Fin.sum_univ_three, ofCols, vec] at h
    linarith
  · have h := rot_zero p hp hsh hs st R pos (ofCols (vec 0 1 0) (vec (-1) 0 0) (vec 0 0 0)) Psp.rotZ Psp.rotZ_orth
      (fun q => by funext k; fin_cases k <;> simp [mulMV, Psp.rotZ, ofCols, vec])
      (fun q k => by
        fin_cases k <;> simp [mulMV, mulVM, Psp.rotZ, ofCols, vec]
        · exact ((hco.mul_const (q 0)).add (hsn.mul_const (q 1)).neg).congr_deriv (by ring)
        · exact ((hsn.mul_const (q 0)).add (hco.mul_const (q 1))).congr_deriv (by ring)
        · exact hasDerivAt_const _ _)
    simp only [← hS] at h
    simp [Fin.sum_univ_three, ofCols, vec] at h
    linarith

/-- Which of the six calculated components an entry of the stress is. -/
def half (S : Fin 3 → Fin 3 → ℝ) (a b : Fin 3) : ℝ :=
  if (a, b) = (2, 1) then S 1 2 else if (a, b) = (0, 2) then S 2 0 else if (a, b) = (1, 0) then S 0 1 else S a b

theorem addStress_apply (p : Params nA no) (st : State nb nG ns) (R : Mat ℝ) (pos : Fin nA → V3 ℝ) (U : Fin ns → Fin nA → Matrix (Fin no) (Fin no) ℂ) (m : Mat ℝ) (a b : Fin 3) :
    addStress p st R pos U m a b = m a b + half (stressIJ p st R pos U) a b := by
  fin_cases a <;> fin_cases b <;> simp [addStress, Psp.rrtIndex, Psp.addEntry, half]

theorem stress_apply (p : Params nA no) (st : Fin nq → State nb nG ns) (R : Mat ℝ) (pos : Fin nA → V3 ℝ) (U : Fin ns → Fin nA → Matrix (Fin no) (Fin no) ℂ) (a b : Fin 3) :
    stress p st R pos U a b = ∑ k, half (stressIJ p (st k) R pos U) a b := by
  have key : ∀ (l : List (Fin nq)) (m : Mat ℝ), l.foldl (fun m q => addStress p (st q) R pos U m) m a b = m a b + (l.map fun k => half (stressIJ p (st k) R pos U) a b).sum := by
    intro l
    induction l with
    | nil => intro m; simp
    | cons k l ih =>
      intro m
      rw [List.foldl_cons, ih, addStress_apply, List.map_cons, List.sum_cons]; ring
  unfold stress
  rw [key, zero_add, Finset.sum_eq_multiset_sum]
  rfl

theorem half_sum (f : Fin nq → Fin 3 → Fin 3 → ℝ) (a b : Fin 3) : ∑ k, half (f k) a b = half (fun a b => ∑ k, f k a b) a b := by
  fin_cases a <;> fin_cases b <;> simp [half]

theorem half_symm (S : Fin 3 → Fin 3 → ℝ) (h : S 2 1 = S 1 2 ∧ S 0 2 = S 2 0 ∧ S 1 0 = S 0 1) (a b : Fin 3) : half S a b = S a b := by
  obtain ⟨h1, h2, h3⟩ := h
  fin_cases a <;> fin_cases b <;> simp [half, h1, h2, h3]

/-! ### Forces -/

theorem opsi_pos_deriv (p : Params nA no) (st : State nb nG ns) (G : Mat ℝ) (pos : Fin nA → V3 ℝ) (a : Fin nA) (u : V3 ℝ) :
    MDeriv (fun t => opsi p st G (Ewald.displace pos a u t)) (Matrix.of fun i x => if x.1 = a then (⟨0, -2 * π * dot u (Psp.kpG (nl p st) i)⟩ : ℂ) * opsi p st G pos i x else 0) 0 := by
  intro i x
  simp only [opsi, Matrix.of_apply]
  by_cases h : x.1 = a
  · simp only [h, if_true, Psp.displace_self]
    exact Psp.vnl_pos_deriv (nl p st) G (pos a) u i x.2
  · simp only [h, if_false, Psp.displace_ne pos a x.1 h]
    exact hasDerivAt_const _ _

theorem dOpsi_sum (p : Params nA no) (st : State nb nG ns) (R : Mat ℝ) (hR : det R ≠ 0) (pos : Fin nA → V3 ℝ) (a : Fin nA) (u : V3 ℝ) :
    (Matrix.of fun i x => if x.1 = a then (⟨0, -2 * π * dot u (Psp.kpG (nl p st) i)⟩ : ℂ) * opsi p st (Basis.G R) pos i x else 0 : Matrix (Fin nG) (Ix nA no) ℂ)
      = -∑ j, ∑ k, ((u j * R k j : ℝ) : ℂ) • (dOpsi p st (Basis.G R) pos k * Matrix.diagonal fun x : Ix nA no => if x.1 = a then (1 : ℂ) else 0) := by
  ext i x
  have h := congrFun (congrFun (Psp.dVnl_sum (nl p st) R hR (pos x.1) u) i) x.2
  simp only [Matrix.of_apply, Matrix.neg_apply, Matrix.sum_apply, Matrix.smul_apply, smul_eq_mul] at h
  simp only [Matrix.of_apply, Matrix.neg_apply, Matrix.sum_apply, Matrix.smul_apply, smul_eq_mul, Matrix.mul_diagonal, dOpsi, opsi]
  by_cases hx : x.1 = a
  · simp only [hx, if_true, mul_one] at h ⊢
    exact h
  · simp [hx]

theorem force_sum (p : Params nA no) (st : Fin nq → State nb nG ns) (R : Mat ℝ) (hR : det R ≠ 0) (pos : Fin nA → V3 ℝ) (U : Fin ns → Fin nA → Matrix (Fin no) (Fin no) ℂ) (a : Fin nA) (u : V3 ℝ) :
    ∑ q, 2 * (st q).w / p.spinWeight * (Matrix.trace (pack (U (st q).spin) * proj p (st q) (Basis.G R) pos * fill (st q)
      * ((Matrix.of fun i x => if x.1 = a then (⟨0, -2 * π * dot u (Psp.kpG (nl p (st q)) i)⟩ : ℂ) * opsi p (st q) (Basis.G R) pos i x else 0 : Matrix (Fin nG) (Ix nA no) ℂ)ᴴ * (st q).C)ᴴ)).re
      = -∑ j, force p st R pos U a j * u j := by
  have h : ∀ q, (Matrix.trace (pack (U (st q).spin) * proj p (st q) (Basis.G R) pos * fill (st q)
      * ((Matrix.of fun i x => if x.1 = a then (⟨0, -2 * π * dot u (Psp.kpG (nl p (st q)) i)⟩ : ℂ) * opsi p (st q) (Basis.G R) pos i x else 0 : Matrix (Fin nG) (Ix nA no) ℂ)ᴴ * (st q).C)ᴴ)).re
      = -∑ j, ∑ k, u j * R k j * ∑ o, ((pack (U (st q).spin) * proj p (st q) (Basis.G R) pos * fill (st q) * ((st q).Cᴴ * dOpsi p (st q) (Basis.G R) pos k)) (a, o) (a, o)).re := by
    intro q
    rw [dOpsi_sum p (st q) R hR]
    simp only [Matrix.conjTranspose_mul, Matrix.conjTranspose_conjTranspose, Matrix.mul_neg, Matrix.mul_sum, Matrix.trace_neg, Matrix.trace_sum, Matrix.mul_smul, Matrix.trace_smul,
      Complex.neg_re, Complex.re_sum, smul_eq_mul, Complex.re_ofReal_mul]
    congr 1
    refine Finset.sum_congr rfl fun j _ => Finset.sum_congr rfl fun k _ => ?_
    congr 1
    rw [← Matrix.mul_assoc (st q).Cᴴ, ← Matrix.mul_assoc _ _ (Matrix.diagonal _)]
    simp only [Matrix.trace, Matrix.diag, Matrix.mul_diagonal, Fintype.sum_prod_type, Complex.re_sum]
    rw [Finset.sum_eq_single a]
    · simp
    · intro b _ hb; simp [hb]
    · intro hh; exact absurd (Finset.mem_univ _) hh
  simp only [h, force, fCartMat, mulMV, M3.transpose, ← Finset.mul_sum, Finset.sum_mul]
  rw [Finset.sum_comm, ← Finset.sum_neg_distrib]
  refine Finset.sum_congr rfl fun q _ => ?_
  simp only [Fin.sum_univ_three]
  ring

end
end Jdftx.DftU
