import Verif.Lemmas.Augment
import Mathlib.Analysis.Calculus.Deriv.Pow
import Mathlib.Analysis.Calculus.Deriv.Add
import Mathlib.Analysis.Calculus.Deriv.Mul

/-! # C112: density augmentation of ultrasoft pseudopotentials

Electron density that ultrasoft pseudopotentials add around atoms, in terms of radial functions and harmonics, and what it adds to the Hamiltonian. -/
namespace Jdftx.Aug
open Matrix

/-! ## Indices of radial functions -/

/-- **C112 (order).** The comparison of indices is a strict weak order, as a map needs, and does not distinguish indices exactly if they are the same up to exchange of the projectors. -/
theorem C112_order : (∀ a, less a a = false) ∧ (∀ a b c, less a b = true → less b c = true → less a c = true) ∧ (∀ a b, (less a b = false ∧ less b a = false) ↔ Same a b) := by
  refine ⟨?_, ?_, fun a b => (same_iff a b).symm⟩
  · intro a
    rw [← Bool.not_eq_true, less_iff]
    omega
  · intro a b c
    rw [less_iff, less_iff, less_iff]
    omega

/-- **C112 (look-up).** In a map, an entry is found exactly if it is the same up to exchange of the projectors. -/
theorem C112_find {keys : List Key} (hk : keys.Pairwise fun a b => less a b = true) (k : Key) (r : Fin keys.length) : find keys k = some r.1 ↔ Same (keys.get r) k := find_iff hk k r

/-- Two radial functions, looked up in exchanged order. -/
example : find [⟨0, 0, 0, 0, 0⟩, ⟨0, 0, 1, 0, 1⟩] ⟨1, 0, 0, 0, 1⟩ = some 1 := by decide +kernel

/-- The list in the example is sorted. -/
example : [(⟨0, 0, 0, 0, 0⟩ : Key), ⟨0, 0, 1, 0, 1⟩].Pairwise fun a b => less a b = true := by decide +kernel

variable {md : Mode} (sp : Species md)

/-- **C112 (arrays).** Elements that the code reads and writes are within the arrays. -/
theorem C112_range (hl : sp.V.length ≤ 4) (s : ℕ) (hs : s < md.nDens) (at' : Fin sp.nAtoms) (i1 i2 : Fin sp.n) (t : Ylm.Term) (ht : t ∈ terms (sp.proj i1) (sp.proj i2)) (r : ℕ)
    (hr : sp.row (sp.proj i1) (sp.proj i2) t = some r) : r < sp.keys.length ∧ 0 ≤ sp.column s at' t ∧ sp.column s at' t < (md.nDens * sp.nAtoms * Nlm sp.V : ℕ) :=
  ⟨find_lt hr, column_range sp hl s hs at' i1 i2 t ht⟩

/-! ## Density -/

theorem rho_herm {nb : ℕ} (hf : ∀ f : sp.Mat, sp.flj = some f → f.IsHermitian) (q : QState sp nb) (a : Fin sp.nAtoms) : (rho sp q a).IsHermitian :=
  rel_herm sp hf _ (dens_herm _ _)

/-- **C112 (density).** Each element of the array is the sum over states of weight times the coefficient of that radial function and harmonic in the density of that spin component at that atom, summed over all
ordered pairs of projectors. -/
theorem C112_density {nb : ℕ} (qs : List (QState sp nb)) (hv : Valid sp qs) (hk : sp.keys.Pairwise fun a b => less a b = true) (s : ℕ) (hs : s < md.nDens) (a : Fin sp.nAtoms) (l m : ℤ) (hm : |m| ≤ l)
    (hL : l ≤ 2 * (lMax sp.V : ℤ)) (r : Fin sp.keys.length) :
    nAug sp qs r (position sp s a l m) = (qs.map fun q => q.weight * coefficient sp (component md q.index (rho sp q a) s) r l m).sum := by
  unfold nAug
  congr 1
  apply List.map_congr_left
  intro q _
  have hh : ∀ a' s', (split0 md q.index (rho sp q a') s').IsHermitian := by
    intro a' s'
    unfold split0
    cases h : split md q.index (rho sp q a') s' with
    | none => exact Matrix.isHermitian_zero
    | some R1 => exact split_herm md q.index _ (rho_herm sp hv.flj q a') s' R1 h
  rw [addState_eq, Finset.sum_eq_single a, Finset.sum_eq_single s]
  · rw [addMat_at sp hv.l hk s s a a l m hm hL _ _ (hh _ _), if_pos ⟨rfl, rfl⟩, split0_component _ _ _ _ hs]
  · intro s' _ h
    rw [addMat_at sp hv.l hk s s' a a l m hm hL _ _ (hh _ _), if_neg (fun h' => h h'.1)]
  · intro h
    exact absurd (Finset.mem_range.2 hs) h
  · intro a' _ h
    apply Finset.sum_eq_zero
    intro s' _
    rw [addMat_at sp hv.l hk s s' a a' l m hm hL _ _ (hh _ _), if_neg (fun h' => h h'.2)]
  · intro h
    exact absurd (Finset.mem_univ a) h

/-! ## Hamiltonian -/

theorem eMat_herm (E : ℕ → ℤ → ℝ) (s : ℕ) (a : Fin sp.nAtoms) : (sp.eMat E s a).IsHermitian := by
  apply Matrix.IsHermitian.ext
  intro i j
  unfold Species.eMat
  simp only [Matrix.of_apply]
  rcases lt_trichotomy i j with h | h | h
  · simp [h.le, not_le.2 h, h.ne]
  · subst h
    simp [ePair_eq, phase_self]
  · simp [h.le, not_le.2 h, h.ne]

theorem collate_herm {n : ℕ} (md : Mode) (index : ℕ) (e : ℕ → Matrix (Fin n) (Fin n) ℂ) (he : ∀ s, (e s).IsHermitian) : (collate md index e).IsHermitian := by
  have hp : ∀ s a b, star (e s a b) = e s b a := fun s a b => (he s).apply b a
  apply Matrix.IsHermitian.ext
  cases md with
  | col m => intro i j; exact hp _ _ _
  | ncol1 =>
    rintro ⟨i, σ⟩ ⟨j, τ⟩
    change Fin 2 at σ τ
    change star (if τ = σ then e 0 j i else 0) = (if σ = τ then e 0 i j else 0)
    by_cases h : σ = τ
    · rw [if_pos h, if_pos h.symm, hp]
    · rw [if_neg h, if_neg (fun h' => h h'.symm), star_zero]
  | ncol4 =>
    rintro ⟨i, σ⟩ ⟨j, τ⟩
    change Fin 2 at σ τ
    have h5 : star (0.5 : ℂ) = 0.5 := by rw [Complex.star_def]; norm_num [Complex.ext_iff]
    have hI : star Complex.I = -Complex.I := Complex.conj_I
    fin_cases σ <;> fin_cases τ
    · exact hp 0 j i
    · change star ((0.5 : ℂ) * e 2 j i - (0.5 * Complex.I) * e 3 j i) = (0.5 : ℂ) * e 2 i j + (0.5 * Complex.I) * e 3 i j
      rw [star_sub, star_mul', star_mul', star_mul', hp, hp, h5, hI]
      ring
    · change star ((0.5 : ℂ) * e 2 j i + (0.5 * Complex.I) * e 3 j i) = (0.5 : ℂ) * e 2 i j - (0.5 * Complex.I) * e 3 i j
      rw [star_add, star_mul', star_mul', star_mul', hp, hp, h5, hI]
      ring
    · exact hp 1 j i

/-- **C112 (Hermitian).** What is added to the Hamiltonian of an atom is Hermitian. -/
theorem C112_hermitian (hf : ∀ f : sp.Mat, sp.flj = some f → f.IsHermitian) (E : ℕ → ℤ → ℝ) (index : ℕ) (a : Fin sp.nAtoms) : (ham sp E index a).IsHermitian :=
  rel_herm sp hf _ (collate_herm md index _ fun s => eMat_herm sp E s a)

/-- **C112 (energy).** For every potential, the energy of the added density is the sum over states of fillings times expectation values of what is added to the Hamiltonian. -/
theorem C112_energy {nb : ℕ} (qs : List (QState sp nb)) (hv : Valid sp qs) (E : ℕ → ℤ → ℝ) :
    energy sp E (nAug sp qs) = (qs.map fun q => expectation sp q q.VdagC (sphericalGrad sp E q)).sum := by
  have e : nAug sp qs = fun r c => (qs.map fun q => sp.addState q.weight q.index (rho sp q) r c).sum := rfl
  rw [e, energy_list]
  congr 1
  apply List.map_congr_left
  intro q hq
  rw [energy_state sp hv.l E q.weight q.index (hv.index q hq) _ (rho_herm sp hv.flj q)]
  unfold expectation
  congr 1
  apply Finset.sum_congr rfl
  intro a _
  unfold rho
  rw [rel_trace, trace_dens]
  rfl

/-! ## Derivative -/

/-- **C112 (derivative).** With derivatives of projections, the code computes the derivative of each element of the density. -/
theorem C112_derivative {nb : ℕ} (q : QState sp nb) (dC : Fin sp.nAtoms → Matrix (Fin sp.n × Fin md.k) (Fin nb) ℂ) (r : ℕ) (c : ℤ) :
    HasDerivAt (fun t : ℝ => nAug sp [q.move t dC] r c) (sp.addState q.weight q.index (rhoDeriv sp q dC none) r c) 0 := by
  have key : ∀ t : ℝ, nAug sp [q.move t dC] r c = sp.addState q.weight q.index (rho sp q) r c + t * sp.addState q.weight q.index (rhoDeriv sp q dC none) r c
      + t * t * sp.addState q.weight q.index (rho sp { q with VdagC := dC }) r c := by
    intro t
    have h : rho sp (q.move t dC) = fun a => (rho sp q a + (t : ℂ) • rhoDeriv sp q dC none a) + ((t * t : ℝ) : ℂ) • rho sp { q with VdagC := dC } a := by
      funext a
      unfold rho rhoDeriv
      rw [← rel_comb, ← rel_comb]
      congr 1
      simp only [QState.move, Option.getD_none, conjTranspose_add, conjTranspose_smul, Matrix.add_mul, Matrix.mul_add, Matrix.smul_mul, Matrix.mul_smul, smul_add, smul_smul, Complex.star_def, Complex.conj_ofReal, Complex.ofReal_mul]
      abel
    have e : nAug sp [q.move t dC] r c = sp.addState q.weight q.index (rho sp (q.move t dC)) r c := by simp [nAug, QState.move]
    rw [e, h, addState_comb, addState_comb]
  have e : (fun t : ℝ => nAug sp [q.move t dC] r c) = fun t => sp.addState q.weight q.index (rho sp q) r c + t * sp.addState q.weight q.index (rhoDeriv sp q dC none) r c
      + t * t * sp.addState q.weight q.index (rho sp { q with VdagC := dC }) r c := funext key
  rw [e]
  have h1 := ((hasDerivAt_id (0 : ℝ)).mul_const (sp.addState q.weight q.index (rhoDeriv sp q dC none) r c)).const_add (sp.addState q.weight q.index (rho sp q) r c)
  have h2 := (((hasDerivAt_id (0 : ℝ)).mul (hasDerivAt_id (0 : ℝ))).mul_const (sp.addState q.weight q.index (rho sp { q with VdagC := dC }) r c))
  have h3 := h1.add h2
  simp only [id, one_mul, mul_zero, zero_mul, mul_one, add_zero] at h3
  exact h3

/-- **C112 (gradient).** The energy of that derivative is twice the real part of the product of the derivative of projections with the gradient the code adds. -/
theorem C112_gradient {nb : ℕ} (q : QState sp nb) (hv : Valid sp [q]) (dC : Fin sp.nAtoms → Matrix (Fin sp.n × Fin md.k) (Fin nb) ℂ) (E : ℕ → ℤ → ℝ) :
    energy sp E (sp.addState q.weight q.index (rhoDeriv sp q dC none)) = 2 * expectation sp q dC (sphericalGrad sp E q) := by
  have hd : (diagonal (fun b => (q.F b : ℂ)))ᴴ = diagonal (fun b => (q.F b : ℂ)) := by
    rw [diagonal_conjTranspose]; congr 1; funext b; simp
  have hh : ∀ a, (rhoDeriv sp q dC none a).IsHermitian := by
    intro a
    apply rel_herm sp hv.flj
    show _ᴴ = _
    simp only [Option.getD_none, conjTranspose_add, conjTranspose_mul, conjTranspose_conjTranspose, hd, Matrix.mul_assoc]
    rw [add_comm]
  rw [energy_state sp hv.l E q.weight q.index (hv.index q (by simp)) _ hh]
  unfold expectation
  rw [← mul_assoc, mul_comm 2, mul_assoc]
  congr 1
  rw [Finset.mul_sum]
  apply Finset.sum_congr rfl
  intro a _
  unfold rhoDeriv
  rw [rel_trace, Matrix.mul_add, Matrix.trace_add, Complex.add_re, Option.getD_none]
  have hH : (ham sp E q.index a).IsHermitian := C112_hermitian sp hv.flj E q.index a
  have e1 : (trace (ham sp E q.index a * (dC a * diagonal (fun b => (q.F b : ℂ)) * (q.VdagC a)ᴴ))).re = (trace (ham sp E q.index a * (q.VdagC a * diagonal (fun b => (q.F b : ℂ)) * (dC a)ᴴ))).re := by
    rw [← Complex.conj_re, ← Complex.star_def, ← Matrix.trace_conjTranspose]
    simp only [conjTranspose_mul, conjTranspose_conjTranspose, hd, hH.eq]
    rw [Matrix.trace_mul_comm]
    simp only [Matrix.mul_assoc]
  have e2 : sp.rel (collate md q.index fun s => sp.eMat E s a) = ham sp E q.index a := rfl
  rw [e2, e1, trace_dens, ← two_mul]
  rfl

/-! ## Examples -/

/-- A relativistic species with an s and a p projector and two atoms, with magnetization. -/
noncomputable def exSpecies : Species .ncol4 := ⟨[1, 1], [⟨0, 0, 0, 0, 0⟩, ⟨0, 0, 1, 0, 1⟩, ⟨1, 0, 1, 0, 0⟩, ⟨1, 0, 1, 0, 2⟩], 2, 10, some 1⟩

/-- A state of it with three bands. -/
noncomputable def exState : QState exSpecies 3 := ⟨1 / 2, 0, fun _ => 1, fun _ => Matrix.of fun _ _ => 1⟩

/-- They meet the hypotheses. -/
example : Valid exSpecies [exState] where
  l := by decide
  flj := by
    intro f h
    cases h
    exact Matrix.isHermitian_one
  index := by
    intro q _ n h
    cases h

example : exSpecies.keys.Pairwise fun a b => less a b = true := by
  show [(⟨0, 0, 0, 0, 0⟩ : Key), ⟨0, 0, 1, 0, 1⟩, ⟨1, 0, 1, 0, 0⟩, ⟨1, 0, 1, 0, 2⟩].Pairwise fun a b => less a b = true
  decide +kernel

/-- The number of projectors, and of harmonics up to d. -/
example : exSpecies.n = 4 ∧ Nlm exSpecies.V = 9 := by
  constructor
  · show (projs [1, 1]).length = 4
    decide +kernel
  · show Nlm [1, 1] = 9
    decide +kernel

/-- The product of the s and a p harmonic has a term, with a radial function. -/
example : (terms ⟨1, 0, 0⟩ ⟨0, 0, 0⟩).length = 1 ∧ find [⟨0, 0, 0, 0, 0⟩, ⟨0, 0, 1, 0, 1⟩, ⟨1, 0, 1, 0, 0⟩, ⟨1, 0, 1, 0, 2⟩] ⟨1, 0, 0, 0, 1⟩ = some 1 := by decide +kernel

end Jdftx.Aug
