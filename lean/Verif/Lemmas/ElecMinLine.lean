import Verif.Lemmas.ElecMin

/-! # Lemmas on successive steps of the electronic minimiser -/
set_option linter.unusedSectionVars false
namespace Jdftx.ElecMin
open Matrix Jdftx.MatFn ComplexConjugate
open scoped ComplexOrder
noncomputable section

variable {Q B : Type} [Fintype Q] [Fintype B] {n : ℕ}

theorem inj_of_unit {R : Mat n} (h : IsUnit R.det) : Function.Injective R.mulVec :=
  mulVec_injective_of_isUnit ((isUnit_iff_isUnit_det R).2 h)

/-- Overlaps stay positive definite as long as the component in the starting space is invertible. -/
theorem overlap_posDef' {O : Matrix B B ℂ} (hO : O.PosSemidef) {C Y : Matrix B (Fin n) ℂ} (hC : Cᴴ * (O * C) = 1) (hY : Cᴴ * (O * Y) = 0) {R M : Mat n} (hR : IsUnit R.det) :
    ((C * R + Y * M)ᴴ * (O * (C * R + Y * M))).PosDef := by
  have hY' : Yᴴ * (O * C) = 0 := by
    have := congrArg conjTranspose hY
    rw [conjTranspose_mul, conjTranspose_mul, conjTranspose_conjTranspose, hO.1, conjTranspose_zero, Matrix.mul_assoc] at this
    exact this
  have e : (C * R + Y * M)ᴴ * (O * (C * R + Y * M)) = Rᴴ * R + (Y * M)ᴴ * O * (Y * M) := by
    rw [conjTranspose_add, Matrix.mul_add, Matrix.add_mul, Matrix.mul_add, Matrix.mul_add]
    have h1 : (C * R)ᴴ * (O * (C * R)) = Rᴴ * R := by
      rw [conjTranspose_mul, ← Matrix.mul_assoc O, Matrix.mul_assoc Rᴴ, ← Matrix.mul_assoc Cᴴ, hC, Matrix.one_mul]
    have h2 : (C * R)ᴴ * (O * (Y * M)) = 0 := by
      rw [conjTranspose_mul, ← Matrix.mul_assoc O, Matrix.mul_assoc Rᴴ, ← Matrix.mul_assoc Cᴴ, hY, Matrix.zero_mul, Matrix.mul_zero]
    have h3 : (Y * M)ᴴ * (O * (C * R)) = 0 := by
      rw [conjTranspose_mul, ← Matrix.mul_assoc O, Matrix.mul_assoc Mᴴ, ← Matrix.mul_assoc Yᴴ, hY', Matrix.zero_mul, Matrix.mul_zero]
    rw [h1, h2, h3, add_zero, zero_add, Matrix.mul_assoc]
  rw [e]
  exact (PosDef.conjTranspose_mul_self R (inj_of_unit hR)).add_posSemidef (hO.conjTranspose_mul_mul_same _)

theorem ortho_ex {l : Lapack n} (hl : l.OK) {A : Mat n} (hA : A.PosDef) : ∃ S, orthoMatrix l A = some S ∧ Sᴴ * (A * S) = 1 ∧ IsUnit S.det := by
  obtain ⟨L, hL⟩ := Option.isSome_iff_exists.1 (hl.posDef _ hA)
  have h : orthoMatrix l A = some (L⁻¹)ᴴ := by unfold orthoMatrix; rw [hL]; rfl
  obtain ⟨-, -, -, -, h4, h5⟩ := ortho_some hl h
  exact ⟨_, h, h4, h5⟩

/-- Rotations of a step are unitary. -/
theorem cis_unitary {l : Lapack n} (hl : l.OK) {A : Mat n} (hA : A.IsHermitian) : (cis l A)ᴴ * cis l A = 1 := by
  have h := hl.eig A hA
  unfold cis
  set V := (l.eig A).1
  set κ := (l.eig A).2
  rw [conjTranspose_mul, conjTranspose_mul, conjTranspose_conjTranspose, diagonal_conjTranspose]
  have h1 : diagonal (star fun i => Complex.exp (Complex.I * (κ i : ℂ))) * diagonal (fun i => Complex.exp (Complex.I * (κ i : ℂ))) = (1 : Mat n) := by
    rw [diagonal_mul_diagonal, ← diagonal_one]
    congr 1
    funext j
    simp only [Pi.star_apply, Complex.star_def]
    rw [← Complex.exp_conj, ← Complex.exp_add]
    simp
  calc V * (diagonal (star fun i => Complex.exp (Complex.I * (κ i : ℂ))) * Vᴴ) * (V * diagonal (fun i => Complex.exp (Complex.I * (κ i : ℂ))) * Vᴴ)
      = V * (diagonal (star fun i => Complex.exp (Complex.I * (κ i : ℂ))) * (Vᴴ * V) * diagonal (fun i => Complex.exp (Complex.I * (κ i : ℂ)))) * Vᴴ := by
        simp only [Matrix.mul_assoc]
    _ = 1 := by rw [h.left, Matrix.mul_one, h1, Matrix.mul_one, h.right]

theorem unit_of_left {U : Mat n} (h : Uᴴ * U = 1) : IsUnit U.det := (mul_det_unit h).2

theorem ortho_mul {O : Matrix B B ℂ} {X : Matrix B (Fin n) ℂ} {S U : Mat n} (hS : Sᴴ * ((Xᴴ * (O * X)) * S) = 1) (hU : Uᴴ * U = 1) :
    (X * (S * U))ᴴ * (O * (X * (S * U))) = 1 := by
  rw [conjTranspose_mul, conjTranspose_mul]
  calc Uᴴ * Sᴴ * Xᴴ * (O * (X * (S * U))) = Uᴴ * (Sᴴ * ((Xᴴ * (O * X)) * S)) * U := by simp only [Matrix.mul_assoc]
    _ = 1 := by rw [hS, Matrix.mul_one, hU]

/-- What is kept by the steps along a direction, with rotations: `T` is the sum of the steps. -/
structure Along (i : Info Q n) (O : Matrix B B ℂ) (dC : Matrix B (Fin n) ℂ) (dH : Mat n) (s0 : QState B n) (T : ℝ) (s : QState B n) : Prop where
  ortho : (s.C)ᴴ * (O * s.C) = 1
  unitary : (s.rotPrev)ᴴ * s.rotPrev = 1
  rot : ∃ R : Mat n, IsUnit R.det ∧ s.C = (s0.C + (T : ℂ) • (dC * s0.rotPrevC)) * R ∧ s.rotPrevC = s0.rotPrevC * R ∧ s.rotPrevCinv = R⁻¹ * s0.rotPrevCinv
  aux : i.hsub = true → s.rotPrev * diagonal (fun j => (s.eps j : ℂ)) * (s.rotPrev)ᴴ
    = s0.rotPrev * diagonal (fun j => (s0.eps j : ℂ)) * (s0.rotPrev)ᴴ + (T : ℂ) • dH

theorem rot_aux {R V : Mat n} {e e' : Fin n → ℝ} {D : Mat n} {α : ℝ} (hR : Rᴴ * R = 1) (hV : Eig (diagonal (fun j => (e j : ℂ)) + (α : ℂ) • (Rᴴ * D * R)) V e') :
    (R * V) * diagonal (fun j => (e' j : ℂ)) * (R * V)ᴴ = R * diagonal (fun j => (e j : ℂ)) * Rᴴ + (α : ℂ) • D := by
  have hR' : R * Rᴴ = 1 := mul_eq_one_comm.1 hR
  rw [conjTranspose_mul]
  calc R * V * diagonal (fun j => (e' j : ℂ)) * (Vᴴ * Rᴴ) = R * (V * diagonal (fun j => (e' j : ℂ))) * Vᴴ * Rᴴ := by simp only [Matrix.mul_assoc]
    _ = R * ((diagonal (fun j => (e j : ℂ)) + (α : ℂ) • (Rᴴ * D * R)) * (V * Vᴴ)) * Rᴴ := by rw [← hV.eq]; simp only [Matrix.mul_assoc]
    _ = R * diagonal (fun j => (e j : ℂ)) * Rᴴ + (α : ℂ) • ((R * Rᴴ) * D * (R * Rᴴ)) := by
      rw [hV.right, Matrix.mul_one, Matrix.mul_add, Matrix.add_mul, Matrix.mul_smul, Matrix.smul_mul]
      simp only [Matrix.mul_assoc]
    _ = _ := by rw [hR', Matrix.one_mul, Matrix.mul_one]

theorem Along.step {i : Info Q n} (hm : i.hsub = true ∨ i.scalar = false) {l : Lapack n} (hl : l.OK) {O : Matrix B B ℂ} (hO : O.PosSemidef) {dC : Matrix B (Fin n) ℂ} {dH : Mat n}
    (hdH : dH.IsHermitian) {s0 s : QState B n} {T : ℝ} (h0 : (s0.C)ᴴ * (O * s0.C) = 1) (ht : (s0.C)ᴴ * (O * dC) = 0) (h : Along i O dC dH s0 T s) (α : ℝ) :
    ∃ s', stepQ i l O dC dH α s = some s' ∧ Along i O dC dH s0 (T + α) s' := by
  obtain ⟨R, hR, hC, hrC, hrCi⟩ := h.rot
  set X := s.C + (α : ℂ) • (dC * s.rotPrevC) with hX
  have hXe : X = (s0.C + ((T + α : ℝ) : ℂ) • (dC * s0.rotPrevC)) * R := by
    rw [hX, hC, hrC, Complex.ofReal_add, add_smul, ← add_assoc, Matrix.add_mul _ ((α : ℂ) • _), Matrix.smul_mul, Matrix.mul_assoc dC]
  have hpd : (Xᴴ * (O * X)).PosDef := by
    have : X = s0.C * R + dC * (((T + α : ℝ) : ℂ) • (s0.rotPrevC * R)) := by
      rw [hXe, Matrix.add_mul, Matrix.smul_mul, Matrix.mul_smul, Matrix.mul_assoc]
    rw [this]
    exact overlap_posDef' hO h0 ht hR
  obtain ⟨S, hS, hS1, hSu⟩ := ortho_ex hl hpd
  set rot := if i.hsub then (l.eig (diagonal (fun j => (s.eps j : ℂ)) + (α : ℂ) • ((s.rotPrev)ᴴ * dH * s.rotPrev))).1 else cis l ((α : ℂ) • dH) with hrot
  have hherm : ((α : ℂ) • dH).IsHermitian := by
    unfold Matrix.IsHermitian
    rw [conjTranspose_smul, hdH.eq]; simp
  have hEig := hl.eig _ (hermitian_line (e := s.eps) (hermitian_rot (R := s.rotPrev) hdH) α)
  have hU : rotᴴ * rot = 1 := by
    rw [hrot]
    split_ifs
    · exact hEig.left
    · exact cis_unitary hl hherm
  have hstep : stepQ i l O dC dH α s = some
      { C := X * (S * rot), eps := if i.hsub then (l.eig (diagonal (fun j => (s.eps j : ℂ)) + (α : ℂ) • ((s.rotPrev)ᴴ * dH * s.rotPrev))).2 else s.eps,
        rotPrev := s.rotPrev * rot, rotPrevC := s.rotPrevC * (S * rot), rotPrevCinv := (S * rot)⁻¹ * s.rotPrevCinv } := by
    unfold stepQ
    rw [← hX]
    simp only [hS, Option.map_some]
    have : (!i.hsub && i.scalar) = false := by
      rcases hm with h | h <;> simp [h]
    rw [if_neg (by simp [this])]
  refine ⟨_, hstep, ⟨ortho_mul hS1 hU, ?_, ⟨R * (S * rot), ?_, ?_, ?_, ?_⟩, ?_⟩⟩
  · show (s.rotPrev * rot)ᴴ * (s.rotPrev * rot) = 1
    rw [conjTranspose_mul, Matrix.mul_assoc, ← Matrix.mul_assoc (s.rotPrevᴴ), h.unitary, Matrix.one_mul, hU]
  · rw [det_mul, det_mul]; exact hR.mul (hSu.mul (unit_of_left hU))
  · show X * (S * rot) = _
    rw [hXe, Matrix.mul_assoc]
  · show s.rotPrevC * (S * rot) = _
    rw [hrC, Matrix.mul_assoc]
  · show (S * rot)⁻¹ * s.rotPrevCinv = _
    rw [hrCi, Matrix.mul_inv_rev R, Matrix.mul_assoc]
  · intro hh
    simp only [hrot, hh, if_true]
    rw [rot_aux h.unitary hEig, h.aux hh, Complex.ofReal_add, add_smul, add_assoc]

/-- Without rotations. -/
structure AlongS (O : Matrix B B ℂ) (dC : Matrix B (Fin n) ℂ) (s0 : QState B n) (s : QState B n) : Prop where
  ortho : (s.C)ᴴ * (O * s.C) = 1
  comb : ∃ R M : Mat n, IsUnit R.det ∧ s.C = s0.C * R + dC * M
  keep : s.eps = s0.eps ∧ s.rotPrev = s0.rotPrev ∧ s.rotPrevC = s0.rotPrevC ∧ s.rotPrevCinv = s0.rotPrevCinv

theorem AlongS.step {i : Info Q n} (hm : i.hsub = false ∧ i.scalar = true) {l : Lapack n} (hl : l.OK) {O : Matrix B B ℂ} (hO : O.PosSemidef) {dC : Matrix B (Fin n) ℂ} {dH : Mat n}
    {s0 s : QState B n} (h0 : (s0.C)ᴴ * (O * s0.C) = 1) (ht : (s0.C)ᴴ * (O * dC) = 0) (h : AlongS O dC s0 s) (α : ℝ) :
    ∃ s', stepQ i l O dC dH α s = some s' ∧ AlongS O dC s0 s' := by
  obtain ⟨R, M, hR, hC⟩ := h.comb
  set X := s.C + (α : ℂ) • (dC * s.rotPrevC) with hX
  have hXe : X = s0.C * R + dC * (M + (α : ℂ) • s.rotPrevC) := by
    rw [hX, hC, Matrix.mul_add, Matrix.mul_smul, add_assoc]
  have hpd : (Xᴴ * (O * X)).PosDef := by
    rw [hXe]; exact overlap_posDef' hO h0 ht hR
  obtain ⟨S, hS, hS1, hSu⟩ := ortho_ex hl hpd
  have hstep : stepQ i l O dC dH α s = some { s with C := X * S } := by
    unfold stepQ
    rw [← hX]
    simp only [hS, Option.map_some, hm.1, hm.2]
    rfl
  refine ⟨_, hstep, ⟨?_, ⟨R * S, (M + (α : ℂ) • s.rotPrevC) * S, ?_, ?_⟩, h.keep⟩⟩
  · have := ortho_mul (U := 1) hS1 (by simp)
    simpa using this
  · rw [det_mul]; exact hR.mul hSu
  · show X * S = _
    rw [hXe, Matrix.add_mul, Matrix.mul_assoc, Matrix.mul_assoc]

theorem steps_along {i : Info Q n} (hm : i.hsub = true ∨ i.scalar = false) {l : Lapack n} (hl : l.OK) {p : Phys Q B} (hO : ∀ q, (p.O q).PosSemidef) {s0 : Q → QState B n}
    {dir : Grad Q B n} (h0 : Orthonormal p s0) (ht : Tangent p s0 dir) :
    ∀ (αs : List ℝ) (T : ℝ) (s : Q → QState B n), (∀ q, Along i (p.O q) (dir.C q) (dir.Haux q) (s0 q) T (s q)) →
      ∃ s', steps i l p dir αs s = some s' ∧ ∀ q, Along i (p.O q) (dir.C q) (dir.Haux q) (s0 q) (T + αs.sum) (s' q) := by
  intro αs
  induction αs with
  | nil => intro T s h; exact ⟨s, rfl, by simpa using h⟩
  | cons α t ih =>
    intro T s h
    choose s1 h1 h2 using fun q => Along.step hm hl (hO q) (ht q).2 (h0 q) (ht q).1 (h q) α
    obtain ⟨s', h3, h4⟩ := ih (T + α) s1 h2
    refine ⟨s', ?_, ?_⟩
    · unfold steps
      rw [step_some.2 h1]
      exact h3
    · simpa [add_assoc] using h4

theorem steps_alongS {i : Info Q n} (hm : i.hsub = false ∧ i.scalar = true) {l : Lapack n} (hl : l.OK) {p : Phys Q B} (hO : ∀ q, (p.O q).PosSemidef) {s0 : Q → QState B n}
    {dir : Grad Q B n} (h0 : Orthonormal p s0) (ht : Tangent p s0 dir) :
    ∀ (αs : List ℝ) (s : Q → QState B n), (∀ q, AlongS (p.O q) (dir.C q) (s0 q) (s q)) →
      ∃ s', steps i l p dir αs s = some s' ∧ ∀ q, AlongS (p.O q) (dir.C q) (s0 q) (s' q) := by
  intro αs
  induction αs with
  | nil => intro s h; exact ⟨s, rfl, h⟩
  | cons α t ih =>
    intro s h
    choose s1 h1 h2 using fun q => AlongS.step (dH := dir.Haux q) hm hl (hO q) (h0 q) (ht q).1 (h q) α
    obtain ⟨s', h3, h4⟩ := ih s1 h2
    refine ⟨s', ?_, h4⟩
    unfold steps
    rw [step_some.2 h1]
    exact h3

theorem Along.start {i : Info Q n} {p : Phys Q B} {s : Q → QState B n} (h0 : Orthonormal p s) (hu : Unitary s) (dir : Grad Q B n) (q : Q) :
    Along i (p.O q) (dir.C q) (dir.Haux q) (s q) 0 (s q) where
  ortho := h0 q
  unitary := (hu q).1
  rot := ⟨1, by simp, by simp, by simp, by simp⟩
  aux := by simp

/-- Projectors are determined by the space. -/
theorem span_unique {O : Matrix B B ℂ} {X : Matrix B (Fin n) ℂ} {R R' : Mat n} (hR : IsUnit R.det) (hR' : IsUnit R'.det) (h : (X * R)ᴴ * (O * (X * R)) = 1)
    (h' : (X * R')ᴴ * (O * (X * R')) = 1) : (X * R) * (X * R)ᴴ = (X * R') * (X * R')ᴴ := by
  have key : ∀ R : Mat n, IsUnit R.det → (X * R)ᴴ * (O * (X * R)) = 1 → R * Rᴴ * (Xᴴ * (O * X)) = 1 := by
    intro R hR h
    have h1 : Rᴴ * ((Xᴴ * (O * X)) * R) = 1 := by
      rw [conjTranspose_mul] at h
      simpa only [Matrix.mul_assoc] using h
    have h2 : ((Xᴴ * (O * X)) * R) * Rᴴ = 1 := mul_eq_one_comm.1 h1
    rw [Matrix.mul_assoc] at h2
    exact mul_eq_one_comm.1 h2
  have e : R * Rᴴ = R' * R'ᴴ := by
    have h1 := key R hR h
    have h2 := mul_eq_one_comm.1 (key R' hR' h')
    calc R * Rᴴ = R * Rᴴ * ((Xᴴ * (O * X)) * (R' * R'ᴴ)) := by rw [h2, Matrix.mul_one]
      _ = R' * R'ᴴ := by rw [← Matrix.mul_assoc, h1, Matrix.one_mul]
  rw [conjTranspose_mul, conjTranspose_mul, Matrix.mul_assoc, ← Matrix.mul_assoc R, e]
  simp only [Matrix.mul_assoc]

/-! ## Rotations for constant fillings -/

theorem MDeriv_of {K V : ℝ → Mat n} {κ : ℝ → Fin n → ℝ} {D : Mat n} (hE : ∀ t, Eig (K t) (V t) (κ t)) (hK : ∀ t : ℝ, K t = (t : ℂ) • D) :
    MDeriv (fun t => fn (V t) (κ t) (fun x => Complex.exp (Complex.I * (x : ℂ)))) (Complex.I • D) 0 := by
  have hK0 : K 0 = diagonal (fun j => (((fun _ => 0 : Fin n → ℝ) j : ℝ) : ℂ)) := by
    rw [hK]; simp
  have hKd : ∀ i l, HasDerivAt (fun t => K t i l) (D i l) 0 := by
    intro i l
    have e : (fun t => K t i l) = fun t : ℝ => (t : ℂ) * D i l := by
      funext t; rw [hK]; rfl
    rw [e]
    have := (Complex.ofRealCLM.hasDerivAt (x := (0 : ℝ))).mul_const (D i l)
    simpa using this
  intro i l
  have hc := fn_deriv K V κ (fun _ => 0) D 0 hE hK0 hKd Real.cos (fun _ => Real.differentiable_cos.differentiableAt) i l
  have hs := fn_deriv K V κ (fun _ => 0) D 0 hE hK0 hKd Real.sin (fun _ => Real.differentiable_sin.differentiableAt) i l
  have e : (fun t => fn (V t) (κ t) (fun x => Complex.exp (Complex.I * (x : ℂ))) i l)
      = fun t => fn (V t) (κ t) (fun x => (Real.cos x : ℂ)) i l + Complex.I * fn (V t) (κ t) (fun x => (Real.sin x : ℂ)) i l := by
    funext t
    rw [fn_apply, fn_apply, fn_apply, Finset.mul_sum, ← Finset.sum_add_distrib]
    refine Finset.sum_congr rfl fun j _ => ?_
    rw [mul_comm Complex.I, Complex.exp_mul_I, Complex.ofReal_cos, Complex.ofReal_sin]
    ring
  rw [e]
  refine (hc.add (hs.const_mul Complex.I)).congr_deriv ?_
  simp [dd, dslope_same]

theorem cis_zero {l : Lapack n} (hl : l.OK) : cis l 0 = 1 := by
  have h := hl.eig 0 (by simp)
  have h0 : Eig (diagonal (fun j => (((fun _ => 0 : Fin n → ℝ) j : ℝ) : ℂ))) (l.eig 0).1 (l.eig 0).2 := by simpa using h
  have hc := fn_start h0 Real.cos
  have hs := fn_start h0 Real.sin
  have e : cis l 0 = fn (l.eig 0).1 (l.eig 0).2 (fun x => (Real.cos x : ℂ)) + Complex.I • fn (l.eig 0).1 (l.eig 0).2 (fun x => (Real.sin x : ℂ)) := by
    show fn (l.eig 0).1 (l.eig 0).2 (fun x => Complex.exp (Complex.I * (x : ℂ))) = _
    ext a b
    rw [Matrix.add_apply, Matrix.smul_apply, smul_eq_mul, fn_apply, fn_apply, fn_apply, Finset.mul_sum, ← Finset.sum_add_distrib]
    refine Finset.sum_congr rfl fun j _ => ?_
    rw [mul_comm Complex.I, Complex.exp_mul_I, Complex.ofReal_cos, Complex.ofReal_sin]
    ring
  rw [e, hc, hs]
  simp

end
end Jdftx.ElecMin
