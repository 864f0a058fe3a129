import Verif.Lemmas.DftU
import Verif.Props.Psp
import Mathlib.Analysis.Matrix.Order

/-!
# C103: DFT+U corrections
-/
namespace Jdftx.DftU
noncomputable section
open M3 Real
open Ewald (displace strained contract)
open scoped Matrix ComplexOrder
open MatFn (MDeriv re_deriv ofReal_deriv conj_deriv)

variable {nA no nb nG nq ns : ℕ}

/-- **C103 (gradient with wavefunctions).** For all wavefunctions and changes of them, the energy changes by the inner product with what the code adds to `H C`, if operations that
symmetrize the density matrices are a group of symmetries of the external potentials too. -/
theorem C103_wavefunctions (p : Params nA no) (hs : p.l ≠ 0 → p.ops.length ≠ 1 → SymOK p) (st : Fin nq → State nb nG ns) (G : Mat ℝ) (pos : Fin nA → V3 ℝ)
    (C : Fin nq → ℝ → Matrix (Fin nG) (Fin nb) ℂ) (C' : Fin nq → Matrix (Fin nG) (Fin nb) ℂ) (h0 : ∀ q, C q 0 = (st q).C) (h : ∀ q, MDeriv (C q) (C' q) 0) :
    HasDerivAt (fun t => total p (fun q => withC (st q) (C q t)) G pos) (∑ q, 2 * (st q).w * (Matrix.trace (fill (st q) * (C' q)ᴴ * hC p (st q) G pos (grads p st G pos))).re) 0 := by
  have hP : ∀ q, MDeriv (fun t => (opsi p (st q) G pos)ᴴ * C q t) ((opsi p (st q) G pos)ᴴ * C' q) 0 := fun q => by
    simpa using (MDeriv.const ((opsi p (st q) G pos)ᴴ) 0).mul (h q)
  have hd := core_deriv p (fun hl => hs (fun hh => hl (Or.inl hh)) (fun hh => hl (Or.inr hh))) st _ _ hP
  refine HasDerivAt.congr_deriv (f := fun t => total p (fun q => withC (st q) (C q t)) G pos) hd ?_
  refine Finset.sum_congr rfl fun q _ => ?_
  have e0 : ∀ q, (opsi p (st q) G pos)ᴴ * C q 0 = proj p (st q) G pos := fun q => by rw [h0]; rfl
  simp only [e0]
  have eg : (fun a => gradU p a (block (symmetrize p (rhoOf p st (fun q => proj p (st q) G pos) (st q).spin)) a)) = grads p st G pos (st q).spin := rfl
  rw [eg]
  simp only [hC, Matrix.mul_smul, Matrix.trace_smul, smul_eq_mul, Complex.re_ofReal_mul]
  have e1 : Matrix.trace (fill (st q) * (C' q)ᴴ * (opsi p (st q) G pos * (pack (grads p st G pos (st q).spin) * ((opsi p (st q) G pos)ᴴ * (st q).C))))
      = Matrix.trace (pack (grads p st G pos (st q).spin) * proj p (st q) G pos * fill (st q) * ((opsi p (st q) G pos)ᴴ * C' q)ᴴ) := by
    simp only [Matrix.conjTranspose_mul, Matrix.conjTranspose_conjTranspose]
    rw [← Matrix.mul_assoc, Matrix.trace_mul_comm]
    simp only [proj, Matrix.mul_assoc]
  rw [e1]
  ring

/-- **C103 (forces).** The energy changes by minus the force times the displacement of an atom. -/
theorem C103_forces (p : Params nA no) (hs : p.l ≠ 0 → p.ops.length ≠ 1 → SymOK p) (st : Fin nq → State nb nG ns) (R : Mat ℝ) (hR : det R ≠ 0) (pos : Fin nA → V3 ℝ) (a : Fin nA) (u : V3 ℝ) :
    HasDerivAt (fun t => total p st (Basis.G R) (displace pos a u t)) (-∑ k, force p st R pos (grads p st (Basis.G R) pos) a k * u k) 0 := by
  have hP : ∀ q, MDeriv (fun t => proj p (st q) (Basis.G R) (displace pos a u t))
      ((Matrix.of fun i x => if x.1 = a then (⟨0, -2 * π * dot u (Psp.kpG (nl p (st q)) i)⟩ : ℂ) * opsi p (st q) (Basis.G R) pos i x else 0 : Matrix (Fin nG) (Ix nA no) ℂ)ᴴ * (st q).C) 0 := fun q => by
    have := (opsi_pos_deriv p (st q) (Basis.G R) pos a u).dagger.mul (MDeriv.const (st q).C 0)
    rw [Matrix.mul_zero, add_zero] at this
    exact this
  have hd := core_deriv p (fun hl => hs (fun hh => hl (Or.inl hh)) (fun hh => hl (Or.inr hh))) st _ _ hP
  refine HasDerivAt.congr_deriv (f := fun t => total p st (Basis.G R) (displace pos a u t)) hd ?_
  rw [← force_sum p st R hR pos]
  have h0 : displace pos a u 0 = pos := by funext b k; simp [displace]
  rw [h0]
  rfl

/-- **C103 (stress).** Without symmetrization, and with complete shells of orbitals, the stress gives the change of the energy under every strain. -/
theorem C103_stress (p : Params nA no) (hp : ∀ o, (p.orb o).OK) (hsh : Shell p.orb) (hs : p.l = 0 ∨ p.ops.length = 1) (st : Fin nq → State nb nG ns) (R : Mat ℝ) (hR : det R ≠ 0) (e : Mat ℝ) (pos : Fin nA → V3 ℝ) :
    HasDerivAt (fun t => total p st (Basis.G (strained R e t)) pos) (contract (stress p st R pos (grads p st (Basis.G R) pos)) e) 0 := by
  have hw : ∀ (k : Fin nq) R' (i : Fin nG), Psp.qvec (nl p (st k)) (Basis.G R') i = CoulK.wave R' (Psp.kpG (nl p (st k)) i) := fun _ _ _ => rfl
  have hd := curve_deriv p hp (fun h => absurd hs h) st R pos e (fun k t => Psp.qvec (nl p (st k)) (Basis.G (strained R e t))) (fun k => by simp only [Ewald.strained_zero])
    (fun k i hi t => by
      simp only [Ewald.strained_zero, hw] at hi
      have hk := (CoulK.wave_zero_iff R hR _).1 hi
      show Psp.qvec (nl p (st k)) (Basis.G (strained R e t)) i = 0
      rw [hw, hk]
      funext k; simp [CoulK.wave, mulVM])
    (fun k i j => by
      simp only [Ewald.strained_zero, hw]
      exact CoulK.wave_deriv R hR e (Psp.kpG (nl p (st k)) i) j)
  refine HasDerivAt.congr_deriv (f := fun t => total p st (Basis.G (strained R e t)) pos) hd ?_
  unfold contract
  refine Finset.sum_congr rfl fun i _ => Finset.sum_congr rfl fun j _ => ?_
  rw [stress_apply, half_sum, half_symm _ (stress_symm p hp hsh hs st R pos _ fun _ _ => rfl)]

/-- **C103 (symmetry).** Density matrices of orbitals with nonzero angular momentum have the symmetry after symmetrization, and those that have it are not changed. -/
theorem C103_symmetric (p : Params nA no) (hs : SymOK p) (hl : p.l ≠ 0) (X : Matrix (Ix nA no) (Ix nA no) ℂ) : Invariant p (symmetrize p X) ∧ (Invariant p X → symmetrize p X = X) := by
  by_cases h1 : p.ops.length = 1
  · obtain ⟨o, ho⟩ := List.length_eq_one_iff.1 h1
    have e : symmetrize p X = X := by rw [symmetrize, if_pos (Or.inr h1)]
    rw [e]
    refine ⟨?_, fun _ => rfl⟩
    have hm : o ∈ p.ops := by simp [ho]
    have hc := hs.closed o hm
    rw [ho, List.map_singleton, List.perm_singleton] at hc
    have hc := List.singleton_inj.1 hc
    have hmap : o.map ∘ o.map = o.map := congrArg Op.map hc
    have hrot : o.rot * o.rot = o.rot := congrArg Op.rot hc
    have hid : ∀ a, o.map a = a := fun a => (hs.bij o hm).1 (congrFun hmap a)
    have hone : o.rot = 1 := by
      have := congrArg (fun Z => o.rotᴴ * Z) hrot
      simpa only [← Matrix.mul_assoc, hs.unitary o hm, Matrix.one_mul] using this
    intro o' ho' a b m m'
    rw [ho, List.mem_singleton] at ho'
    subst ho'
    rw [hid, hid, hone]
    simp [Matrix.one_apply]
  · have hne : ¬(p.l = 0 ∨ p.ops.length = 1) := by
      rintro (h | h)
      · exact hl h
      · exact h1 h
    constructor
    · intro o ho a b m m'
      have hb := (hs.bij o ho).1
      have hu := transform_unitary o hb (hs.unitary o ho)
      have hu' : transform o * (transform o)ᴴ = 1 := mul_eq_one_comm.1 hu
      rw [← transform_block o hb, sym_comm p hs hne X o ho, Matrix.mul_assoc, hu', Matrix.mul_one]
    · intro hX
      rw [symmetrize, if_neg hne]
      have key : ∀ o ∈ p.ops, transform o * X * (transform o)ᴴ = X := by
        intro o ho
        ext x y
        obtain ⟨a, ha⟩ := (hs.bij o ho).2 x.1
        obtain ⟨b, hb⟩ := (hs.bij o ho).2 y.1
        have := transform_block o (hs.bij o ho).1 X a b x.2 y.2
        rw [← hX o ho a b x.2 y.2, ha, hb] at this
        exact this
      rw [List.map_congr_left key, List.map_const', List.sum_replicate, ← Nat.cast_smul_eq_nsmul ℂ, smul_smul]
      have : (p.ops.length : ℂ) ≠ 0 := by
        have := List.length_pos_of_ne_nil hs.ne
        exact_mod_cast this.ne'
      push_cast
      rw [one_div_mul_cancel this, one_smul]

/-- **C103 (basis).** The energy does not depend on the orthonormal basis of the orbitals. -/
theorem C103_rotation (p : Params nA no) (D : Matrix (Fin no) (Fin no) ℂ) (hD : Dᴴ * D = 1) (rho : Fin ns → Fin nA → Matrix (Fin no) (Fin no) ℂ) :
    energyU p (fun s a => D * rho s a * Dᴴ) = energyU p rho := energy_rotation p D hD rho

open scoped MatrixOrder Matrix.Norms.L2Operator in
theorem psd_factor {V : Matrix (Fin no) (Fin no) ℂ} (hV : V.PosSemidef) : ∃ B : Matrix (Fin no) (Fin no) ℂ, V = Bᴴ * B := CStarAlgebra.nonneg_iff_eq_star_mul_self.mp hV.nonneg

/-- **C103 (penalty).** Without external potentials, and with U-J and the spin weight not negative: the energy is not negative when occupations are between zero and one, and it is zero
when they are all zero or one. -/
theorem C103_penalty (p : Params nA no) (hU : 0 ≤ p.UminusJ) (hw : 0 ≤ p.spinWeight) (hV : ∀ a, p.Vext a = 0) (rho : Fin ns → Fin nA → Matrix (Fin no) (Fin no) ℂ) :
    ((∀ s a, (rho s a).PosSemidef ∧ (1 - rho s a).PosSemidef) → 0 ≤ energyU p rho) ∧ ((∀ s a, rho s a * rho s a = rho s a) → energyU p rho = 0) := by
  have hc : 0 ≤ Uprefac p := by unfold Uprefac; positivity
  have e : ∀ s a, (Matrix.trace (((VextPrefac p a + Uprefac p : ℝ) : ℂ) • rho s a - ((Uprefac p : ℝ) : ℂ) • (rho s a * rho s a))).re = Uprefac p * (Matrix.trace (rho s a * (1 - rho s a))).re := by
    intro s a
    rw [VextPrefac, hV, zero_mul, zero_add, ← smul_sub, Matrix.trace_smul, smul_eq_mul, Complex.re_ofReal_mul, Matrix.mul_sub, Matrix.mul_one]
  unfold energyU
  simp only [e]
  constructor
  · intro h
    refine Finset.sum_nonneg fun s _ => Finset.sum_nonneg fun a _ => mul_nonneg hc ?_
    obtain ⟨B, hB⟩ := psd_factor (h s a).1
    have h1 := ((h s a).2.mul_mul_conjTranspose_same B).trace_nonneg
    have h2 : Matrix.trace (rho s a * (1 - rho s a)) = Matrix.trace (B * (1 - rho s a) * Bᴴ) := by
      rw [Matrix.trace_mul_comm (B * _), ← Matrix.mul_assoc, ← hB]
    rw [h2]
    exact (Complex.le_def.1 h1).1
  · intro h
    refine Finset.sum_eq_zero fun s _ => Finset.sum_eq_zero fun a _ => ?_
    rw [Matrix.mul_sub, Matrix.mul_one, h s a]; simp

/-! ### Cases -/

/-- Two atoms that a translation exchanges, with orbitals of angular momentum 1. -/
def exParams (U : ℝ) (V : Fin 2 → ℝ) (l : ℕ) : Params 2 3 where
  orb := Psp.pProj
  l := l
  UminusJ := U
  Vext := V
  spinWeight := 1
  ops := [⟨id, 1⟩, ⟨fun a => 1 - a, 1⟩]

theorem swap_swap : (fun a : Fin 2 => 1 - a) ∘ (fun a => 1 - a) = id := by
  funext a; fin_cases a <;> rfl

theorem exParams_sym (U v : ℝ) (l : ℕ) : SymOK (exParams U (fun _ => v) l) where
  ne := by simp [exParams]
  bij := by
    intro o ho
    simp only [exParams, List.mem_cons, List.not_mem_nil, or_false] at ho
    rcases ho with rfl | rfl
    · exact Function.bijective_id
    · exact Function.Involutive.bijective fun a => congrFun swap_swap a
  unitary := by
    intro o ho
    simp only [exParams, List.mem_cons, List.not_mem_nil, or_false] at ho
    rcases ho with rfl | rfl <;> simp
  closed := by
    intro o ho
    simp only [exParams, List.mem_cons, List.not_mem_nil, or_false] at ho
    rcases ho with rfl | rfl
    · simp [exParams]
    · simp only [exParams, List.map_cons, List.map_nil, swap_swap, Matrix.mul_one, Function.comp_id]
      exact List.Perm.swap _ _ _
  Vext := by intro o ho a; rfl

theorem exShell : Shell Psp.pProj := by
  intro U hU
  refine ⟨Matrix.of fun i j => U i j, ?_, ?_⟩
  · ext i j
    have := congrFun (congrFun hU i) j
    simp only [mulMM, M3.transpose, zero_add] at this
    simp only [Matrix.mul_apply, Matrix.transpose_apply, Matrix.of_apply, Fin.sum_univ_three]
    refine this.trans ?_
    fin_cases i <;> fin_cases j <;> simp [diag, vec]
  · intro q o
    simp only [Psp.pProj_prefac, mulMV, Fin.sum_univ_three, Matrix.of_apply, zero_add]

/-- One state with two plane waves. -/
def exState : State 1 2 1 where
  spin := 0
  k := vec 0.5 0 0
  iG := fun i => if i = 0 then fun _ => 0 else fun j => if j = 1 then 1 else 0
  C := Matrix.of fun _ _ => 1
  F := fun _ => 1
  w := 1

def exPos : Fin 2 → V3 ℝ := fun a => if a = 0 then fun _ => 0 else vec 0 0.5 0

example (C' : Matrix (Fin 2) (Fin 1) ℂ) := C103_wavefunctions (nq := 1) (exParams 2 (fun _ => 3) 1) (fun _ _ => exParams_sym 2 3 1) (fun _ => exState) (diag 1 1 1) exPos
  (fun _ t => exState.C + (t : ℂ) • C') (fun _ => C') (fun _ => by simp) (fun _ i j => by
    have := ((ofReal_deriv (hasDerivAt_id (0 : ℝ))).mul_const (C' i j)).const_add (exState.C i j)
    simpa [Matrix.add_apply, Matrix.smul_apply] using this)
example (u : V3 ℝ) := C103_forces (nq := 1) (exParams 2 (fun _ => 3) 1) (fun _ _ => exParams_sym 2 3 1) (fun _ => exState) (diag 1 2 3) Psp.diag_det exPos 1 u
example (e : Mat ℝ) := C103_stress (nq := 1) { exParams 2 (fun _ => 3) 1 with ops := [⟨id, 1⟩] } Psp.pProj_ok exShell (Or.inr rfl) (fun _ => exState) (diag 1 2 3) Psp.diag_det e exPos
example (X : Matrix (Ix 2 3) (Ix 2 3) ℂ) := C103_symmetric (exParams 2 (fun _ => 3) 1) (exParams_sym 2 3 1) (by decide) X
example := C103_penalty (ns := 1) (exParams 2 (fun _ => 0) 1) (by norm_num [exParams]) (by norm_num [exParams]) (fun _ => rfl) (fun _ _ => 1)

/-- **C103 (s orbitals).** Density matrices of orbitals with zero angular momentum are not symmetrized, although atoms are exchanged by symmetries. -/
theorem C103_s_fails : ∃ (p : Params 2 1) (X : Matrix (Ix 2 1) (Ix 2 1) ℂ), SymOK p ∧ p.l = 0 ∧ X.IsHermitian ∧ ¬Invariant p (symmetrize p X) := by
  refine ⟨⟨fun _ => Psp.pProj 0, 0, 1, fun _ => 0, 1, [⟨id, 1⟩, ⟨fun a => 1 - a, 1⟩]⟩, Matrix.diagonal fun x => if x.1 = 0 then 1 else 0, ?_, rfl, ?_, ?_⟩
  · refine ⟨by simp, ?_, ?_, ?_, fun _ _ _ => rfl⟩
    · intro o ho
      simp only [List.mem_cons, List.not_mem_nil, or_false] at ho
      rcases ho with rfl | rfl
      · exact Function.bijective_id
      · exact Function.Involutive.bijective fun a => congrFun swap_swap a
    · intro o ho
      simp only [List.mem_cons, List.not_mem_nil, or_false] at ho
      rcases ho with rfl | rfl <;> simp
    · intro o ho
      simp only [List.mem_cons, List.not_mem_nil, or_false] at ho
      rcases ho with rfl | rfl
      · simp
      · simp only [List.map_cons, List.map_nil, swap_swap, Matrix.mul_one, Function.comp_id]
        exact List.Perm.swap _ _ _
  · unfold Matrix.IsHermitian
    rw [Matrix.diagonal_conjTranspose]
    congr 1
    funext x
    by_cases h : x.1 = 0 <;> simp [h]
  · intro h
    have := h ⟨fun a => 1 - a, 1⟩ (by simp) 0 0 0 0
    simp [symmetrize] at this

/-- Projections of the state. -/
theorem exState_proj (U : ℝ) (V : Fin 2 → ℝ) : proj (exParams U V 1) exState (diag 1 1 1) exPos = Matrix.of fun x _ => if x.1 = 0 then (if x.2 = 2 then 0 else 1) else (if x.2 = 1 then -1 else 0) := by
  have c0 : Euler.cis 0 = 1 := EXX.cis_zero
  have c1 : Euler.cis (-π) = -1 := by
    apply Complex.ext <;> simp [Euler.cis]
  have hq : ∀ i j, Psp.qvec (nl (exParams U V 1) exState) (diag 1 1 1) i j = Psp.kpG (nl (exParams U V 1) exState) i j := by
    intro i j; fin_cases j <;> simp [Psp.qvec, mulVM, diag, vec]
  have hk : ∀ i, Psp.kpG (nl (exParams U V 1) exState) i = if i = 0 then vec 0.5 0 0 else vec 0.5 1 0 := by
    intro i; funext j
    fin_cases i <;> fin_cases j <;> simp [Psp.kpG, nl, exState, vec, Ewald.toR]
  have hph : ∀ a i, Euler.cis (-2 * π * dot (exPos a) (Psp.kpG (nl (exParams U V 1) exState) i)) = if a = 1 ∧ i = 1 then -1 else 1 := by
    intro a i
    rw [hk]
    fin_cases a <;> fin_cases i <;> simp [exPos, dot, vec, c0]
    rw [← c1]; congr 1; ring
  ext x b
  simp only [proj, Matrix.mul_apply, Matrix.conjTranspose_apply, opsi, Matrix.of_apply, Psp.vnl, hph, Fin.sum_univ_two]
  have ho : ∀ o i, Psp.prefac ((nl (exParams U V 1) exState).proj o) (Psp.qvec (nl (exParams U V 1) exState) (diag 1 1 1) i) = (if i = 0 then vec 0.5 0 0 else vec 0.5 1 0 : V3 ℝ) o := by
    intro o i
    show Psp.prefac (Psp.pProj o) _ = _
    rw [Psp.pProj_prefac, hq, hk]
  simp only [ho, star_mul', Complex.star_def, Complex.conj_ofReal]
  obtain ⟨a, o⟩ := x
  fin_cases a <;> fin_cases o <;> (simp [exState, vec]; try norm_num)

theorem ex_sym (U : ℝ) (V : Fin 2 → ℝ) (X : Matrix (Ix 2 3) (Ix 2 3) ℂ) : Matrix.trace (block (symmetrize (exParams U V 1) X) 0) = 1 / 2 * (Matrix.trace (block X 0) + Matrix.trace (block X 1)) := by
  have e : symmetrize (exParams U V 1) X = ((1 / 2 : ℝ) : ℂ) • (transform (⟨id, 1⟩ : Op 2 3) * X * (transform (⟨id, 1⟩ : Op 2 3))ᴴ + transform (⟨fun a => 1 - a, 1⟩ : Op 2 3) * X * (transform (⟨fun a => 1 - a, 1⟩ : Op 2 3))ᴴ) := by
    simp [symmetrize, exParams]
  have e2 : ∀ (c : ℂ) (A B : Matrix (Ix 2 3) (Ix 2 3) ℂ), block (c • (A + B)) 0 = c • (block A 0 + block B 0) := fun _ _ _ => rfl
  have h1 := block_transform (⟨id, 1⟩ : Op 2 3) Function.injective_id X 0
  have h2 := block_transform (⟨fun a => 1 - a, 1⟩ : Op 2 3) (Function.Involutive.bijective fun a => congrFun swap_swap a).1 X 1
  simp only [id, sub_self, Matrix.conjTranspose_one, Matrix.mul_one, Matrix.one_mul] at h1 h2
  rw [e, e2, h1, h2, Matrix.trace_smul, Matrix.trace_add, smul_eq_mul]
  norm_num

/-- **C103 (external potentials).** With an external potential on one of two atoms that a symmetry exchanges, the gradient of the code is not that of the energy. -/
theorem C103_vext_fails : SymOK (exParams 0 (fun _ => 0) 1) ∧ ∃ (V : Fin 2 → ℝ) (C : ℝ → Matrix (Fin 2) (Fin 1) ℂ) (C' : Matrix (Fin 2) (Fin 1) ℂ), C 0 = exState.C ∧ MDeriv C C' 0 ∧
    ¬HasDerivAt (fun t => total (exParams 0 V 1) (fun _ : Fin 1 => withC exState (C t)) (diag 1 1 1) exPos)
      (∑ _q : Fin 1, 2 * exState.w * (Matrix.trace (fill exState * C'ᴴ * hC (exParams 0 V 1) exState (diag 1 1 1) exPos (grads (exParams 0 V 1) (fun _ : Fin 1 => exState) (diag 1 1 1) exPos))).re) 0 := by
  refine ⟨exParams_sym 0 0 1, fun a => if a = 0 then 1 else 0, fun t => ((1 + t : ℝ) : ℂ) • exState.C, exState.C, by simp, ?_, ?_⟩
  · intro i j
    have := (ofReal_deriv ((hasDerivAt_id (0 : ℝ)).const_add 1)).mul_const (exState.C i j)
    simpa [Matrix.smul_apply] using this
  · set V : Fin 2 → ℝ := fun a => if a = 0 then 1 else 0 with hV
    intro h
    have hr : ∀ t : ℝ, ∀ s, rhoRaw (exParams 0 V 1) (fun _ : Fin 1 => withC exState (((1 + t : ℝ) : ℂ) • exState.C)) (diag 1 1 1) exPos s
        = (((1 + t) ^ 2 : ℝ) : ℂ) • (proj (exParams 0 V 1) exState (diag 1 1 1) exPos * (proj (exParams 0 V 1) exState (diag 1 1 1) exPos)ᴴ) := by
      intro t s
      have ef : fill (withC exState (((1 + t : ℝ) : ℂ) • exState.C)) = 1 := by
        ext i j; simp [fill, withC, exState, Matrix.one_apply, Matrix.diagonal_apply]
      have ep : proj (exParams 0 V 1) (withC exState (((1 + t : ℝ) : ℂ) • exState.C)) (diag 1 1 1) exPos = ((1 + t : ℝ) : ℂ) • proj (exParams 0 V 1) exState (diag 1 1 1) exPos := by
        unfold proj
        rw [← Matrix.mul_smul]
        rfl
      have es : s = 0 := Subsingleton.elim _ _
      simp only [rhoRaw, ef, ep, Finset.univ_unique, Finset.sum_singleton, es]
      rw [if_pos (Subsingleton.elim _ _), Matrix.mul_one, Matrix.conjTranspose_smul, Matrix.smul_mul, Matrix.mul_smul, smul_smul, smul_smul]
      congr 1
      simp [withC, exState, exParams]
      ring
    have hP := exState_proj 0 V
    have hX : ∀ a, Matrix.trace (block (proj (exParams 0 V 1) exState (diag 1 1 1) exPos * (proj (exParams 0 V 1) exState (diag 1 1 1) exPos)ᴴ) a) = if a = 0 then 2 else 1 := by
      intro a
      rw [hP]
      fin_cases a <;> simp [Matrix.trace, block, Matrix.mul_apply, Fin.sum_univ_three]
      norm_num
    have hU0 : Uprefac (exParams 0 V 1) = 0 := by simp [Uprefac, exParams]
    have hV0 : ∀ a, VextPrefac (exParams 0 V 1) a = V a := fun a => by simp [VextPrefac, exParams]
    have ht : (fun t => total (exParams 0 V 1) (fun _ : Fin 1 => withC exState (((1 + t : ℝ) : ℂ) • exState.C)) (diag 1 1 1) exPos) = fun t => 3 / 2 * (1 + t) ^ 2 := by
      funext t
      have e2 : ∀ (c : ℂ) (A : Matrix (Ix 2 3) (Ix 2 3) ℂ) a, block (c • A) a = c • block A a := fun _ _ _ => rfl
      simp only [total, energyU, rhoAtom, hr, hU0, hV0, Fin.sum_univ_two, Finset.univ_unique, Finset.sum_singleton]
      simp only [Complex.ofReal_zero, zero_smul, sub_zero, add_zero, Matrix.trace_smul, smul_eq_mul, Complex.re_ofReal_mul]
      rw [ex_sym, e2, e2, Matrix.trace_smul, Matrix.trace_smul, hX, hX, smul_eq_mul, smul_eq_mul]
      simp only [hV, one_ne_zero, if_true, if_false, zero_mul, add_zero, one_mul]
      have : (1 / 2 * (((((1 + t) ^ 2 : ℝ) : ℂ)) * 2 + (((1 + t) ^ 2 : ℝ) : ℂ) * 1) : ℂ) = ((3 / 2 * (1 + t) ^ 2 : ℝ) : ℂ) := by push_cast; ring
      rw [this, Complex.ofReal_re]
    have h3 : HasDerivAt (fun t : ℝ => 3 / 2 * (1 + t) ^ 2) 3 0 := by
      have := ((((hasDerivAt_id (0 : ℝ)).const_add 1).pow 2)).const_mul (3 / 2)
      refine this.congr_deriv ?_
      norm_num
    have h4 := h3.unique (ht ▸ h)
    have hv : Matrix.trace (fill exState * exState.Cᴴ * hC (exParams 0 V 1) exState (diag 1 1 1) exPos (grads (exParams 0 V 1) (fun _ : Fin 1 => exState) (diag 1 1 1) exPos)) = 2 := by
      have ef : fill exState = 1 := by
        ext i j; simp [fill, exState, Matrix.one_apply, Matrix.diagonal_apply]
      have e1 : hC (exParams 0 V 1) exState (diag 1 1 1) exPos (grads (exParams 0 V 1) (fun _ : Fin 1 => exState) (diag 1 1 1) exPos)
          = opsi (exParams 0 V 1) exState (diag 1 1 1) exPos * (pack (fun a => ((V a : ℝ) : ℂ) • 1) * proj (exParams 0 V 1) exState (diag 1 1 1) exPos) := by
        have eg : grads (exParams 0 V 1) (fun _ : Fin 1 => exState) (diag 1 1 1) exPos exState.spin = fun a => ((V a : ℝ) : ℂ) • 1 := by
          funext a
          simp [grads, gradU, hU0, hV0]
        simp only [hC, eg]
        rw [show (exParams 0 V 1).spinWeight = 1 from rfl]
        simp [proj]
      rw [e1, ef, Matrix.one_mul, ← Matrix.mul_assoc, Matrix.trace_mul_comm, Matrix.mul_assoc]
      rw [show exState.Cᴴ * opsi (exParams 0 V 1) exState (diag 1 1 1) exPos = (proj (exParams 0 V 1) exState (diag 1 1 1) exPos)ᴴ by simp [proj], trace_pack]
      simp only [Matrix.smul_mul, Matrix.one_mul, Matrix.trace_smul, hX, Fin.sum_univ_two]
      simp [hV]
    rw [hv] at h4
    simp [exState] at h4
    norm_num at h4

end
end Jdftx.DftU
