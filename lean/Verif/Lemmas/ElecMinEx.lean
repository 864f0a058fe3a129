import Verif.Lemmas.ElecMinSlope
import Verif.Lemmas.ElecMinFixed
import Verif.Lemmas.ElecMinStd

/-! # Examples for the electronic minimiser: independent electrons -/
set_option linter.unusedSectionVars false
namespace Jdftx.ElecMin
open Matrix Jdftx.MatFn Jdftx.Smear ComplexConjugate
open scoped ComplexOrder
noncomputable section

variable {Q B : Type} [Fintype Q] [Fintype B] {n : ℕ}

/-- Independent electrons with Hamiltonian `h`. -/
def lin [DecidableEq B] (w : Q → ℝ) (h : Q → Matrix B B ℂ) : Phys Q B where
  E G := ∑ q, w q * (h q * G q).trace.re
  H _ q := h q
  O _ := 1

theorem lin_OK [DecidableEq B] (w : Q → ℝ) (h : Q → Matrix B B ℂ) (hh : ∀ q, (h q).IsHermitian) : (lin w h).OK w where
  deriv G G' _ hd := by
    refine HasDerivAt.fun_sum fun q _ => ?_
    have h1 : MDeriv (fun t => h q * G t q) (h q * G' q) 0 := by
      have := (MDeriv.const (h q) 0).mul (show MDeriv (fun t => G t q) (G' q) 0 from hd q)
      have e : (0 : Matrix B B ℂ) * G 0 q + h q * G' q = h q * G' q := by simp
      rw [e] at this
      exact this
    exact h1.re_trace.const_mul (w q)
  hermitian G _ q := hh q
  overlap q := PosSemidef.one

/-- A slope is right only if it is the derivative along the states that the program visits. -/
theorem slope_unique {i : Info Q n} {l : Lapack n} {f : Search Q n} {p : Phys Q B} {s : Q → QState B n} {dir : Grad Q B n} {s' : ℝ → Q → QState B n}
    (h1 : ∀ α, step i l p s dir α = some (s' α)) {d : ℝ} (h2 : HasDerivAt (fun α => freeEnergy i f p (s' α)) d 0) (h : SlopeCorrect i l f p s dir) :
    d = dot (grad i f p s) dir := by
  obtain ⟨s₂, h3, h4⟩ := h
  have : s₂ = s' := funext fun α => Option.some.inj ((h3 α).symm.trans (h1 α))
  rw [this] at h4
  exact h2.unique h4

theorem fermi_sum (σ e mu : ℝ) (x y : ℝ) (h : e = x + y) (hm : mu = e / 2) : smear .fermi σ mu x + smear .fermi σ mu y = 1 := by
  unfold smear occ
  have : xOf σ mu y = -xOf σ mu x := by
    unfold xOf; rw [hm, h]; ring
  simp only [this, Real.tanh_neg]
  ring

/-- Settings of the example: two states of opposite spin with two bands each. -/
def exInfo (Bz mu : Option ℝ) : Info (Fin 2) 2 where
  w _ := 1
  spin q := if q = 0 then 1 else -1
  spinZ := true
  kind := .fermi
  σ := 1
  cut := 0
  hsub := true
  scalar := false
  mu := mu
  Bz := Bz
  F0 _ _ := 0

/-- One electron in each spin channel. -/
def exSearch : Search (Fin 2) 2 where
  findMu eps := (((eps 0 0 + eps 0 1) / 2 + (eps 1 0 + eps 1 1) / 2) / 2, ((eps 0 0 + eps 0 1) / 2 - (eps 1 0 + eps 1 1) / 2) / 2)
  findBz _ _ := 0

theorem exSearch_OK (mu : Option ℝ) : exSearch.OK (exInfo none mu) 2 0 where
  number eps := by
    unfold number
    simp only [Fin.sum_univ_two, exInfo, muEff]
    have h0 := fermi_sum 1 (eps 0 0 + eps 0 1) ((exSearch.findMu eps).1 + (exSearch.findMu eps).2 * 1) (eps 0 0) (eps 0 1) rfl (by simp [exSearch]; ring)
    have h1 := fermi_sum 1 (eps 1 0 + eps 1 1) ((exSearch.findMu eps).1 + (exSearch.findMu eps).2 * (-1)) (eps 1 0) (eps 1 1) rfl (by simp [exSearch]; ring)
    simp only [if_pos, show ((1 : Fin 2) = 0) = False by simp, if_false]
    linarith
  magnetization _ _ eps := by
    unfold magnetization
    simp only [Fin.sum_univ_two, exInfo, muEff]
    have h0 := fermi_sum 1 (eps 0 0 + eps 0 1) ((exSearch.findMu eps).1 + (exSearch.findMu eps).2 * 1) (eps 0 0) (eps 0 1) rfl (by simp [exSearch]; ring)
    have h1 := fermi_sum 1 (eps 1 0 + eps 1 1) ((exSearch.findMu eps).1 + (exSearch.findMu eps).2 * (-1)) (eps 1 0) (eps 1 1) rfl (by simp [exSearch]; ring)
    simp only [if_pos, show ((1 : Fin 2) = 0) = False by simp, if_false]
    linarith
  field b h := by simp [exInfo] at h

/-- Two bands in a space of three dimensions; different levels for the two spins. -/
def exState (q : Fin 2) : QState (Fin 3) 2 := ⟨!![1, 0; 0, 1; 0, 0], ![0, if q = 0 then 1 else 2], 1, 1, 1⟩

def exDir : Grad (Fin 2) (Fin 3) 2 := ⟨fun _ => !![0, 0; 0, 0; 1, Complex.I], fun _ => !![1, Complex.I; -Complex.I, 3]⟩

theorem exState_ortho (w : Fin 2 → ℝ) (h : Fin 2 → Matrix (Fin 3) (Fin 3) ℂ) : Orthonormal (lin w h) exState := by
  intro q
  ext a b
  fin_cases a <;> fin_cases b <;> simp [lin, exState, Matrix.mul_apply, Fin.sum_univ_three]

theorem exState_unitary : Unitary exState := fun q => by simp [exState]

theorem exDir_tangent (w : Fin 2 → ℝ) (h : Fin 2 → Matrix (Fin 3) (Fin 3) ℂ) : Tangent (lin w h) exState exDir := by
  intro q
  constructor
  · ext a b
    fin_cases a <;> fin_cases b <;> simp [lin, exState, exDir, Matrix.mul_apply, Fin.sum_univ_three]
  · ext a b
    fin_cases a <;> fin_cases b <;> simp [exDir, conjTranspose_apply]

theorem exState_sep : Separated exState := by
  intro q a b h
  fin_cases q <;> fin_cases a <;> fin_cases b <;> simp [exState] at h ⊢ <;> norm_num

theorem exCut (Bz mu : Option ℝ) (f : Search (Fin 2) 2) (s : Fin 2 → QState B 2) : CutOK (exInfo Bz mu) f s := by
  intro _ q j
  have h := (C65_bounds .fermi (Or.inl rfl) 1 (muEff (exInfo Bz mu) (mults (exInfo Bz mu) f fun q => (s q).eps) q) one_pos).2 ((s q).eps j)
  unfold fill
  simp only [exInfo, if_true] at h ⊢
  constructor <;> linarith [h.1, h.2]

theorem ex_spins (Bz mu : Option ℝ) : (exInfo Bz mu).SpinsOK := by
  unfold Info.SpinsOK
  simp only [exInfo, if_true]
  intro q
  fin_cases q <;> simp

end
end Jdftx.ElecMin
