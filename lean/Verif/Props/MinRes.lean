import Verif.Model.MinRes
import Mathlib.LinearAlgebra.FiniteDimensional.Lemmas
import Mathlib.LinearAlgebra.Span.Basic
import Mathlib.Tactic.Linarith
import Mathlib.Tactic.LinearCombination
import Mathlib.Tactic.FieldSimp
import Mathlib.Tactic.Module

/-!
# C84: the MINRES solver minimises the residual and converges
-/
set_option linter.unusedSectionVars false
noncomputable section
namespace Jdftx.MinRes

variable {V : Type} [AddCommGroup V] [Module ℝ V]

/-! ### Specification -/

/-- An inner product, and symmetric operator and square root of the preconditioner. The operator need not be definite. -/
structure Symm (sys : Sys V) : Prop where
  add : ∀ x y z, sys.dot (x + y) z = sys.dot x z + sys.dot y z
  smul : ∀ (a : ℝ) x y, sys.dot (a • x) y = a * sys.dot x y
  symm : ∀ x y, sys.dot x y = sys.dot y x
  pos : ∀ x, x ≠ 0 → 0 < sys.dot x x
  operator_symm : ∀ x y, sys.dot (sys.A x) y = sys.dot x (sys.A y)
  Ks_symm : ∀ x y, sys.dot (sys.Ks x) y = sys.dot x (sys.Ks y)

/-- The norm of the residual `A y + b` of a state, as measured by the preconditioner `K = Ks²`. -/
def residualNorm (sys : Sys V) (b y : V) : ℝ := Real.sqrt (sys.dot (sys.A y + b) (sys.Ks (sys.Ks (sys.A y + b))))

/-- The Krylov space: all combinations of the first residual and `n - 1` applications of `Ks A Ks` to it. -/
def krylov (sys : Sys V) (b x0 : V) (n : Nat) : Submodule ℝ V :=
  Submodule.span ℝ {z | ∃ i < n, z = (sys.Ks ∘ₗ sys.A ∘ₗ sys.Ks)^[i] (sys.Ks (sys.A (sys.Ks x0) + b))}

/-! ### Consequences of symmetry -/

variable {sys : Sys V}

theorem Symm.zero (h : Symm sys) (y : V) : sys.dot 0 y = 0 := by have := h.smul 0 0 y; simpa using this
theorem Symm.add' (h : Symm sys) (x y z : V) : sys.dot x (y + z) = sys.dot x y + sys.dot x z := by rw [h.symm, h.add, h.symm y, h.symm z]
theorem Symm.smul' (h : Symm sys) (a : ℝ) (x y : V) : sys.dot x (a • y) = a * sys.dot x y := by rw [h.symm, h.smul, h.symm]
theorem Symm.zero' (h : Symm sys) (y : V) : sys.dot y 0 = 0 := by rw [h.symm, h.zero]
theorem Symm.neg (h : Symm sys) (x y : V) : sys.dot (-x) y = -sys.dot x y := by have := h.smul (-1) x y; simpa using this
theorem Symm.neg' (h : Symm sys) (x y : V) : sys.dot x (-y) = -sys.dot x y := by rw [h.symm, h.neg, h.symm]
theorem Symm.nonneg (h : Symm sys) (x : V) : 0 ≤ sys.dot x x := by
  by_cases e : x = 0
  · rw [e, h.zero]
  · exact (h.pos x e).le
theorem Symm.eq_zero (h : Symm sys) {x : V} (e : sys.dot x x = 0) : x = 0 := by
  by_contra hx
  exact (h.pos x hx).ne' e

/-- `Ks A Ks`. -/
def B (sys : Sys V) : V →ₗ[ℝ] V := sys.Ks ∘ₗ sys.A ∘ₗ sys.Ks

theorem B_apply (x : V) : B sys x = sys.Ks (sys.A (sys.Ks x)) := rfl

theorem B_symm (h : Symm sys) (x y : V) : sys.dot (B sys x) y = sys.dot x (B sys y) := by
  rw [B_apply, B_apply, h.Ks_symm, h.operator_symm, h.Ks_symm]

/-- Minus the residual, in the transformed variables. -/
def res (sys : Sys V) (b x : V) : V := -(B sys x + sys.Ks b)

theorem res_eq (b x : V) : res sys b x = -sys.Ks (sys.A (sys.Ks x) + b) := by rw [res, map_add, B_apply]

theorem res_add (b x z : V) : res sys b (x + z) = res sys b x - B sys z := by
  simp only [res, map_add]; abel

theorem norm_eq (h : Symm sys) (b x : V) : residualNorm sys b (sys.Ks x) = Real.sqrt (sys.dot (res sys b x) (res sys b x)) := by
  unfold residualNorm
  rw [res_eq, h.neg, h.neg', neg_neg, h.Ks_symm]

/-! ### The Krylov space -/

theorem kry_zero (b x0 : V) : krylov sys b x0 0 = ⊥ := by
  unfold krylov
  rw [Submodule.span_eq_bot]
  rintro z ⟨i, hi, _⟩
  omega

theorem kry_mono (b x0 : V) {m n : Nat} (h : m ≤ n) : krylov sys b x0 m ≤ krylov sys b x0 n :=
  Submodule.span_mono fun z ⟨i, hi, e⟩ => ⟨i, by omega, e⟩

theorem kry_B (b x0 : V) (n : Nat) (z : V) (hz : z ∈ krylov sys b x0 n) : B sys z ∈ krylov sys b x0 (n + 1) := by
  have : krylov sys b x0 n ≤ (krylov sys b x0 (n + 1)).comap (B sys) := by
    refine Submodule.span_le.2 ?_
    rintro z ⟨i, hi, rfl⟩
    refine Submodule.subset_span ⟨i + 1, by omega, ?_⟩
    rw [Function.iterate_succ_apply']
    rfl
  exact this hz

theorem kry_succ (b x0 : V) (n : Nat) : krylov sys b x0 (n + 1) =
    krylov sys b x0 n ⊔ Submodule.span ℝ {(B sys)^[n] (sys.Ks (sys.A (sys.Ks x0) + b))} := by
  refine le_antisymm ?_ (sup_le (kry_mono b x0 (by omega)) ?_)
  · refine Submodule.span_le.2 ?_
    rintro z ⟨i, hi, rfl⟩
    by_cases e : i = n
    · rw [e]; exact Submodule.mem_sup_right (Submodule.subset_span rfl)
    · exact Submodule.mem_sup_left (Submodule.subset_span ⟨i, by omega, rfl⟩)
  · refine Submodule.span_le.2 ?_
    rintro z rfl
    exact Submodule.subset_span ⟨n, by omega, rfl⟩

theorem split (P : Submodule ℝ V) (v z : V) (hz : z ∈ P ⊔ Submodule.span ℝ {v}) : ∃ y ∈ P, ∃ a : ℝ, z = y + a • v := by
  obtain ⟨y, hy, t, ht, e⟩ := Submodule.mem_sup.1 hz
  obtain ⟨a, rfl⟩ := Submodule.mem_span_singleton.1 ht
  exact ⟨y, hy, a, e.symm⟩

/-! ### The iteration -/

/-- What holds after `k` iterations of the state. -/
structure Good (sys : Sys V) (b x0 : V) (k : Nat) (st : St V) : Prop where
  inside : st.state - x0 ∈ krylov sys b x0 k
  rho_nonneg : 0 ≤ st.rho
  rho : sys.dot (res sys b st.state) (res sys b st.state) = st.rho ^ 2
  orth : ∀ z ∈ krylov sys b x0 k, sys.dot (res sys b st.state) (B sys z) = 0

/-- What holds after `k` iterations of the other variables, as long as they are numbers. -/
structure Inv (sys : Sys V) (b x0 : V) (k : Nat) (st : St V) (v u u' : V) : Prop where
  v_unit : sys.dot v v = 1
  v_orth : ∀ z ∈ krylov sys b x0 k, sys.dot v z = 0
  v_in : v ∈ krylov sys b x0 (k + 1)
  space : krylov sys b x0 (k + 1) = krylov sys b x0 k ⊔ Submodule.span ℝ {v}
  lanczos : ∀ z ∈ krylov sys b x0 k, sys.dot v (B sys z) = st.beta * sys.dot st.vold z
  old : st.beta • st.vold ∈ krylov sys b x0 k
  cs : st.c ^ 2 + st.s ^ 2 = 1
  u_eq : u = st.s • u' - st.c • v
  u_unit : sys.dot u u = 1
  u_in : u ∈ krylov sys b x0 (k + 1)
  u_orth : ∀ z ∈ krylov sys b x0 k, sys.dot u (B sys z) = 0
  res_eq : res sys b st.state = st.rho • u
  wtt : B sys st.wtt = -(st.betatilde • u') + B sys v - st.beta • st.vold
  wtt_in : st.wtt - v ∈ krylov sys b x0 k
  w_eq : (st.s = 0 ∧ st.betatilde = 0) ∨ (B sys st.w = st.c • u' + st.s • v ∧ st.w ∈ krylov sys b x0 k)
  rho_pos : 0 < st.rho
  inside : st.state - x0 ∈ krylov sys b x0 k

theorem Inv.good (h : Symm sys) {b x0 : V} {k : Nat} {st : St V} {v u u' : V} (i : Inv sys b x0 k st v u u') : Good sys b x0 k st := by
  refine ⟨i.inside, i.rho_pos.le, ?_, fun z hz => ?_⟩
  · rw [i.res_eq, h.smul, h.smul', i.u_unit]; ring
  · rw [i.res_eq, h.smul, i.u_orth z hz, mul_zero]

theorem start_good (h : Symm sys) (b x0 : V) : Good sys b x0 0 (start sys b x0) := by
  have hr : sys.Ks ((-1 : ℝ) • sys.A (sys.Ks x0) + (-1 : ℝ) • b) = res sys b x0 := by
    rw [res_eq, ← map_neg]; congr 1; module
  refine ⟨by simp [start], Real.sqrt_nonneg _, ?_, ?_⟩
  · show sys.dot (res sys b x0) (res sys b x0) = (Real.sqrt _) ^ 2
    rw [Real.sq_sqrt (h.nonneg _), hr]
  · intro z hz
    rw [kry_zero, Submodule.mem_bot] at hz
    rw [hz, map_zero, h.zero']

theorem start_inv (h : Symm sys) (b x0 v : V) (hv : (start sys b x0).v = some v) : Inv sys b x0 0 (start sys b x0) v v 0 := by
  have hr : sys.Ks ((-1 : ℝ) • sys.A (sys.Ks x0) + (-1 : ℝ) • b) = res sys b x0 := by
    rw [res_eq, ← map_neg]; congr 1; module
  unfold start at hv
  simp only [hr] at hv
  split at hv
  · exact absurd hv (by simp)
  rename_i hne
  injection hv with hv
  have hpos : 0 < Real.sqrt (sys.dot (res sys b x0) (res sys b x0)) := lt_of_le_of_ne (Real.sqrt_nonneg _) (Ne.symm hne)
  have hrv : res sys b x0 = Real.sqrt (sys.dot (res sys b x0) (res sys b x0)) • v := by
    rw [← hv, smul_smul, mul_one_div_cancel hne, one_smul]
  have vu : sys.dot v v = 1 := by
    rw [← hv, h.smul, h.smul']
    have := Real.sq_sqrt (h.nonneg (res sys b x0))
    generalize Real.sqrt (sys.dot (res sys b x0) (res sys b x0)) = q at *
    rw [← this]; field_simp
  have v0 : ∀ z ∈ krylov sys b x0 0, z = 0 := fun z hz => by rwa [kry_zero, Submodule.mem_bot] at hz
  have sp : krylov sys b x0 (0 + 1) = krylov sys b x0 0 ⊔ Submodule.span ℝ {v} := by
    rw [kry_succ]
    congr 1
    show Submodule.span ℝ {sys.Ks (sys.A (sys.Ks x0) + b)} = _
    have e : sys.Ks (sys.A (sys.Ks x0) + b) = (-Real.sqrt (sys.dot (res sys b x0) (res sys b x0))) • v := by
      rw [neg_smul, ← hrv, res_eq, neg_neg]
    rw [e]
    exact Submodule.span_singleton_smul_eq (IsUnit.mk0 _ (neg_ne_zero.2 hne)) v
  have vin : v ∈ krylov sys b x0 (0 + 1) := by
    rw [sp]; exact Submodule.mem_sup_right (Submodule.subset_span rfl)
  have es : start sys b x0 = ⟨x0, some v, x0, x0, v, Real.sqrt (sys.dot (res sys b x0) (res sys b x0)), 0, 0, -1, 0⟩ := by
    unfold start
    simp only [hr]
    rw [if_neg hne, hv]
  rw [es]
  refine ⟨vu, ?_, vin, sp, ?_, ?_, by norm_num, by simp, vu, vin, ?_, hrv, by simp, by simp, Or.inl ⟨rfl, rfl⟩, hpos, by simp⟩
  · intro z hz; rw [v0 z hz, h.zero']
  · intro z hz; rw [v0 z hz]; simp [h.zero']
  · simp
  · intro z hz; rw [v0 z hz, map_zero, h.zero']

/-- The step preserves the invariants. -/
theorem step_inv (h : Symm sys) (b x0 : V) (k : Nat) (st st1 : St V) (v u u' : V) (hv : st.v = some v) (i : Inv sys b x0 k st v u u')
    (hs : step sys st = some st1) :
    Good sys b x0 (k + 1) st1 ∧ st1.rho ≤ st.rho ∧ (∀ v1, st1.v = some v1 → ∃ u1, Inv sys b x0 (k + 1) st1 v1 u1 u) ∧ (st1.v = none → st1.rho = 0) ∧
      (st1.c = 0 → st.c ≠ 0 ∨ st.betatilde = 0) ∧ (st1.c ≠ 0 → st1.rho < st.rho) ∧ (st1.v ≠ none → st.c ≠ 0 → st1.betatilde ≠ 0) := by
  unfold step at hs
  rw [hv] at hs
  simp only at hs
  set vhat0 := sys.Ks (sys.A (sys.Ks v)) + (-st.beta) • st.vold with hvhat0
  set alpha := sys.dot v vhat0 with halpha
  set vhat := vhat0 + (-alpha) • v with hvhat
  set beta := Real.sqrt (sys.dot vhat vhat) with hbeta
  set at' := -st.s * st.betatilde - st.c * alpha with hat
  set l1 := st.s * alpha - st.c * st.betatilde with hl1
  set l0 := Real.sqrt (at' * at' + beta * beta) with hl0
  split at hs
  · exact absurd hs (by simp)
  rename_i hl
  injection hs with hs
  have b0 : 0 ≤ beta := Real.sqrt_nonneg _
  have bsq : beta ^ 2 = sys.dot vhat vhat := Real.sq_sqrt (h.nonneg _)
  have lsq : l0 ^ 2 = at' * at' + beta * beta := Real.sq_sqrt (add_nonneg (mul_self_nonneg _) (mul_self_nonneg _))
  have lpos : 0 < l0 := lt_of_le_of_ne (Real.sqrt_nonneg _) (Ne.symm hl)
  have mono := kry_mono (sys := sys) b x0 (Nat.le_succ k)
  have mono2 := kry_mono (sys := sys) b x0 (Nat.le_succ (k + 1))
  have vB : B sys v ∈ krylov sys b x0 (k + 1 + 1) := kry_B b x0 _ _ i.v_in
  -- the new direction
  have hBv : B sys v = vhat + alpha • v + st.beta • st.vold := by
    rw [hvhat, hvhat0, B_apply]; module
  have ovold : sys.dot (st.beta • st.vold) v = 0 := by rw [h.symm]; exact i.v_orth _ i.old
  have hat_v : sys.dot vhat v = 0 := by
    rw [hvhat, h.add, h.smul, i.v_unit, h.symm vhat0 v, ← halpha]; ring
  have hat_orth : ∀ z ∈ krylov sys b x0 (k + 1), sys.dot vhat z = 0 := by
    intro z hz
    rw [i.space] at hz
    obtain ⟨y, hy, a, rfl⟩ := split _ _ _ hz
    have e : vhat = B sys v + (-st.beta) • st.vold + (-alpha) • v := rfl
    have : sys.dot vhat y = 0 := by
      rw [e, h.add, h.add, h.smul, h.smul, i.v_orth y hy, B_symm h, i.lanczos y hy]; ring
    rw [h.add', h.smul', hat_v, this]; ring
  have hat_in : vhat ∈ krylov sys b x0 (k + 1 + 1) := by
    have e : vhat = B sys v - st.beta • st.vold - alpha • v := by rw [hBv]; module
    rw [e]
    exact Submodule.sub_mem _ (Submodule.sub_mem _ vB (mono2 (mono i.old))) (Submodule.smul_mem _ _ (mono2 i.v_in))
  -- the transformed directions
  have at_eq : B sys (st.wtt + (-l1) • st.w) = at' • u + vhat := by
    rw [map_add, map_smul, i.wtt, hBv]
    rcases i.w_eq with ⟨s0, t0⟩ | ⟨e, _⟩
    · have l10 : l1 = 0 := by rw [hl1, s0, t0]; ring
      have c2 : st.c ^ 2 = 1 := by have := i.cs; rw [s0] at this; linarith
      rw [l10, hat, i.u_eq, s0, t0]
      have e : alpha • v = (alpha * st.c ^ 2) • v := by rw [c2, mul_one]
      have g : -((0 : ℝ) • u') + (vhat + alpha • v + st.beta • st.vold) - st.beta • st.vold + (-(0 : ℝ)) • B sys st.w = alpha • v + vhat := by module
      rw [g, e]; module
    · rw [e, i.u_eq, hl1, hat]
      have cs := i.cs
      have s2 : st.s ^ 2 = 1 - st.c ^ 2 := by linarith
      have e1 : -st.betatilde - (st.s * alpha - st.c * st.betatilde) * st.c = (-st.s * st.betatilde - st.c * alpha) * st.s := by linear_combination st.betatilde * cs
      have e2 : alpha - (st.s * alpha - st.c * st.betatilde) * st.s = (-st.s * st.betatilde - st.c * alpha) * (-st.c) := by linear_combination (-alpha) * cs
      have g : -(st.betatilde • u') + (vhat + alpha • v + st.beta • st.vold) - st.beta • st.vold + (-(st.s * alpha - st.c * st.betatilde)) • (st.c • u' + st.s • v) =
        (-st.betatilde - (st.s * alpha - st.c * st.betatilde) * st.c) • u' + (alpha - (st.s * alpha - st.c * st.betatilde) * st.s) • v + vhat := by module
      rw [g, e1, e2]; module
  have u_v : sys.dot u vhat = 0 := by rw [h.symm]; exact hat_orth u i.u_in
  have hc : (at' / l0) ^ 2 + (beta / l0) ^ 2 = 1 := by field_simp; linarith
  have Bw : B sys ((1 / l0) • (st.wtt + (-l1) • st.w)) = (at' / l0) • u + (1 / l0) • vhat := by
    rw [map_smul, at_eq, smul_add, smul_smul]; congr 2; ring
  have hres : res sys b (st.state + (st.rho * (at' / l0)) • ((1 / l0) • (st.wtt + (-l1) • st.w))) =
      (st.rho * (beta / l0) ^ 2) • u - (st.rho * (at' / l0) * (1 / l0)) • vhat := by
    rw [res_add, map_smul, Bw, i.res_eq]
    have : (beta / l0) ^ 2 = 1 - (at' / l0) ^ 2 := by linarith
    rw [this]; module
  have w_part : l1 • st.w ∈ krylov sys b x0 k := by
    rcases i.w_eq with ⟨s0, t0⟩ | ⟨_, hw⟩
    · rw [hl1, s0, t0]; simp
    · exact Submodule.smul_mem _ _ hw
  have w_in : (1 / l0) • (st.wtt + (-l1) • st.w) ∈ krylov sys b x0 (k + 1) := by
    refine Submodule.smul_mem _ _ ?_
    have : st.wtt + (-l1) • st.w = (st.wtt - v) - l1 • st.w + v := by module
    rw [this]
    exact Submodule.add_mem _ (mono (Submodule.sub_mem _ i.wtt_in w_part)) i.v_in
  have w_span : ∀ z ∈ krylov sys b x0 (k + 1), ∃ y ∈ krylov sys b x0 k, ∃ a : ℝ, z = y + a • ((1 / l0) • (st.wtt + (-l1) • st.w)) := by
    intro z hz
    rw [i.space] at hz
    obtain ⟨y, hy, a, rfl⟩ := split _ _ _ hz
    refine ⟨y - a • ((st.wtt - v) - l1 • st.w), Submodule.sub_mem _ hy (Submodule.smul_mem _ _ (Submodule.sub_mem _ i.wtt_in w_part)), a * l0, ?_⟩
    rw [smul_smul, show a * l0 * (1 / l0) = a by field_simp]
    module
  have hin : st.state + (st.rho * (at' / l0)) • ((1 / l0) • (st.wtt + (-l1) • st.w)) - x0 ∈ krylov sys b x0 (k + 1) := by
    rw [add_sub_right_comm]
    exact Submodule.add_mem _ (mono i.inside) (Submodule.smul_mem _ _ w_in)
  have hsle : beta / l0 ≤ 1 := by
    rw [div_le_one lpos]
    nlinarith [mul_self_nonneg at']
  have hs0 : 0 ≤ beta / l0 := div_nonneg b0 lpos.le
  -- orthogonality of the new residual
  have horth : ∀ z ∈ krylov sys b x0 (k + 1), sys.dot ((st.rho * (beta / l0) ^ 2) • u - (st.rho * (at' / l0) * (1 / l0)) • vhat) (B sys z) = 0 := by
    intro z hz
    obtain ⟨y, hy, a, rfl⟩ := w_span z hz
    have e1 : sys.dot u (B sys y) = 0 := i.u_orth y hy
    have e2 : sys.dot vhat (B sys y) = 0 := hat_orth _ (kry_B b x0 k y hy)
    rw [map_add, map_smul, Bw, sub_eq_add_neg, ← neg_smul, h.add, h.smul, h.smul]
    simp only [h.add', h.smul', e1, e2, i.u_unit, u_v, h.symm vhat u, ← bsq]
    field_simp
    ring
  have good : ∀ v1 wtt, Good sys b x0 (k + 1) ⟨st.state + (st.rho * (at' / l0)) • ((1 / l0) • (st.wtt + (-l1) • st.w)), v1, v, (1 / l0) • (st.wtt + (-l1) • st.w), wtt,
      beta / l0 * st.rho, beta, st.c * beta, at' / l0, beta / l0⟩ := by
    intro v1 wtt
    refine ⟨hin, mul_nonneg hs0 i.rho_pos.le, ?_, ?_⟩
    · show sys.dot (res sys b (st.state + _)) (res sys b (st.state + _)) = _
      rw [hres, sub_eq_add_neg, ← neg_smul]
      simp only [h.add, h.add', h.smul, h.smul', i.u_unit, u_v, h.symm vhat u, ← bsq]
      have : (at' / l0) ^ 2 = 1 - (beta / l0) ^ 2 := by linarith
      have e : -(st.rho * (at' / l0) * (1 / l0)) * (-(st.rho * (at' / l0) * (1 / l0)) * beta ^ 2) = st.rho ^ 2 * (beta / l0) ^ 2 * (at' / l0) ^ 2 := by field_simp
      linear_combination e + st.rho ^ 2 * (beta / l0) ^ 2 * this
    · intro z hz
      show sys.dot (res sys b (st.state + _)) _ = 0
      rw [hres]
      exact horth z hz
  refine ⟨?_, ?_, ?_, ?_, ?_, ?_, ?_⟩
  · rw [← hs]; exact good _ _
  · rw [← hs]
    show beta / l0 * st.rho ≤ st.rho
    nlinarith [i.rho_pos]
  · intro v1 hv1
    rw [← hs] at hv1
    simp only at hv1
    split at hv1
    · exact absurd hv1 (by simp)
    rename_i hb
    injection hv1 with hv1
    have bpos : 0 < beta := lt_of_le_of_ne b0 (Ne.symm hb)
    have hvv : vhat = beta • v1 := by rw [← hv1, smul_smul, mul_one_div_cancel hb, one_smul]
    have e1 : sys.dot v1 v1 = 1 := by
      rw [← hv1, h.smul, h.smul', ← bsq]; field_simp
    have v1o : ∀ z ∈ krylov sys b x0 (k + 1), sys.dot v1 z = 0 := fun z hz => by rw [← hv1, h.smul, hat_orth z hz, mul_zero]
    have v1in : v1 ∈ krylov sys b x0 (k + 1 + 1) := by rw [← hv1]; exact Submodule.smul_mem _ _ hat_in
    have sp : krylov sys b x0 (k + 1 + 1) = krylov sys b x0 (k + 1) ⊔ Submodule.span ℝ {v1} := by
      refine le_antisymm ?_ (sup_le mono2 (Submodule.span_le.2 (by rintro z rfl; exact v1in)))
      have BP : ∀ z ∈ krylov sys b x0 (k + 1), B sys z ∈ krylov sys b x0 (k + 1) ⊔ Submodule.span ℝ {v1} := by
        intro z hz
        rw [i.space] at hz
        obtain ⟨y, hy, a, rfl⟩ := split _ _ _ hz
        rw [map_add, map_smul, hBv, hvv]
        have m1 := Submodule.mem_sup_left (T := Submodule.span ℝ {v1}) (kry_B b x0 k y hy)
        have m2 := Submodule.mem_sup_left (T := Submodule.span ℝ {v1}) (mono i.old)
        have m3 := Submodule.mem_sup_left (T := Submodule.span ℝ {v1}) i.v_in
        have m4 : v1 ∈ krylov sys b x0 (k + 1) ⊔ Submodule.span ℝ {v1} := Submodule.mem_sup_right (Submodule.subset_span rfl)
        exact Submodule.add_mem _ m1 (Submodule.smul_mem _ _ (Submodule.add_mem _ (Submodule.add_mem _ (Submodule.smul_mem _ _ m4) (Submodule.smul_mem _ _ m3)) m2))
      rw [kry_succ]
      refine sup_le le_sup_left (Submodule.span_le.2 ?_)
      rintro z rfl
      rw [Function.iterate_succ_apply']
      exact BP _ (Submodule.subset_span ⟨k, by omega, rfl⟩)
    have hu : (beta / l0) • u - (at' / l0) • v1 ∈ krylov sys b x0 (k + 1 + 1) :=
      Submodule.sub_mem _ (Submodule.smul_mem _ _ (mono2 i.u_in)) (Submodule.smul_mem _ _ v1in)
    have hur : (st.rho * (beta / l0) ^ 2) • u - (st.rho * (at' / l0) * (1 / l0)) • vhat = (beta / l0 * st.rho) • ((beta / l0) • u - (at' / l0) • v1) := by
      rw [hvv, smul_sub, smul_smul, smul_smul, smul_smul]
      congr 2 <;> ring
    have rp : 0 < beta / l0 * st.rho := mul_pos (div_pos bpos lpos) i.rho_pos
    refine ⟨(beta / l0) • u - (at' / l0) • v1, ?_⟩
    rw [← hs, if_neg hb]
    refine ⟨e1, v1o, v1in, sp, ?_, Submodule.smul_mem _ _ i.v_in, hc, rfl, ?_, hu, ?_, ?_, ?_, ?_, Or.inr ⟨?_, w_in⟩, rp, hin⟩
    · intro z hz
      show sys.dot v1 (B sys z) = beta * sys.dot v z
      rw [i.space] at hz
      obtain ⟨y, hy, a, rfl⟩ := split _ _ _ hz
      rw [map_add, map_smul, h.add', h.smul', v1o _ (kry_B b x0 k y hy), h.add', h.smul', i.v_orth y hy, i.v_unit, hBv, hvv, h.add', h.add', h.smul', h.smul', e1, v1o v i.v_in,
        v1o _ (mono i.old)]
      ring
    · rw [sub_eq_add_neg, ← neg_smul]
      have uv1 : sys.dot u v1 = 0 := by rw [h.symm]; exact v1o u i.u_in
      simp only [h.add, h.add', h.smul, h.smul', i.u_unit, e1, uv1, h.symm v1 u]
      linear_combination hc
    · intro z hz
      have := horth z hz
      rw [hur, h.smul] at this
      exact (mul_eq_zero.1 this).resolve_left rp.ne'
    · show res sys b (st.state + _) = _
      rw [hres, hur]
    · show B sys ((1 / beta) • vhat + (-(st.s * beta)) • st.w) = -((st.c * beta) • u) + B sys v1 - beta • v
      rw [map_add, map_smul, ← map_smul, hv1, map_smul]
      have cs := i.cs
      rcases i.w_eq with ⟨s0, t0⟩ | ⟨e, _⟩
      · have c2 : st.c ^ 2 = 1 := by have := cs; rw [s0] at this; linarith
        rw [i.u_eq, s0]
        have e : beta • v = (beta * st.c ^ 2) • v := by rw [c2, mul_one]
        rw [e]; module
      · rw [e, i.u_eq]
        have e : beta • v = (beta * (st.c ^ 2 + st.s ^ 2)) • v := by rw [cs, mul_one]
        rw [e]; module
    · show (1 / beta) • vhat + (-(st.s * beta)) • st.w - v1 ∈ _
      rw [hv1]
      have : v1 + (-(st.s * beta)) • st.w - v1 = -(beta • (st.s • st.w)) := by module
      rw [this]
      refine Submodule.neg_mem _ (Submodule.smul_mem _ _ ?_)
      rcases i.w_eq with ⟨s0, t0⟩ | ⟨_, hw⟩
      · rw [s0, zero_smul]; exact Submodule.zero_mem _
      · exact mono (Submodule.smul_mem _ _ hw)
    · show B sys ((1 / l0) • _) = (at' / l0) • u + (beta / l0) • v1
      rw [Bw, hvv, smul_smul]; congr 2; ring
  · rw [← hs]
    simp only
    intro hn
    split at hn
    · rename_i hb; rw [hb]; simp
    · exact absurd hn (by simp)
  · rw [← hs]
    intro hc1
    have a0 : at' = 0 := by
      rcases div_eq_zero_iff.1 hc1 with e | e
      · exact e
      · exact absurd e hl
    by_contra hcon
    push Not at hcon
    have s2 : st.s ^ 2 = 1 := by have := i.cs; rw [hcon.1] at this; linarith
    rw [hat, hcon.1] at a0
    have : st.s * st.betatilde = 0 := by linarith
    rcases mul_eq_zero.1 this with e | e
    · rw [e] at s2; norm_num at s2
    · exact hcon.2 e
  · rw [← hs]
    intro hc1
    show beta / l0 * st.rho < st.rho
    have : 0 < (at' / l0) ^ 2 := by positivity
    have : beta / l0 < 1 := by nlinarith
    nlinarith [i.rho_pos]
  · rw [← hs]
    simp only
    intro hv1 hc1
    by_cases hb : beta = 0
    · rw [if_pos hb] at hv1; exact absurd rfl hv1
    · exact mul_ne_zero hc1 hb


/-- The step does not break down as long as the operator is invertible. -/
theorem step_some (h : Symm sys) (hB : ∀ z, B sys z = 0 → z = 0) (b x0 : V) (k : Nat) (st : St V) (v u u' : V) (hv : st.v = some v) (i : Inv sys b x0 k st v u u') :
    ∃ st1, step sys st = some st1 := by
  unfold step
  rw [hv]
  simp only
  set vhat0 := sys.Ks (sys.A (sys.Ks v)) + (-st.beta) • st.vold with hvhat0
  set alpha := sys.dot v vhat0 with halpha
  set vhat := vhat0 + (-alpha) • v with hvhat
  set beta := Real.sqrt (sys.dot vhat vhat) with hbeta
  set at' := -st.s * st.betatilde - st.c * alpha with hat
  set l1 := st.s * alpha - st.c * st.betatilde with hl1
  set l0 := Real.sqrt (at' * at' + beta * beta) with hl0
  by_cases hl : l0 = 0
  swap
  · rw [if_neg hl]; exact ⟨_, rfl⟩
  exfalso
  have lsq : l0 ^ 2 = at' * at' + beta * beta := Real.sq_sqrt (add_nonneg (mul_self_nonneg _) (mul_self_nonneg _))
  have a0 : at' = 0 := by rw [hl] at lsq; nlinarith [mul_self_nonneg at', mul_self_nonneg beta]
  have b0 : beta = 0 := by rw [hl] at lsq; nlinarith [mul_self_nonneg at', mul_self_nonneg beta]
  have v0 : vhat = 0 := h.eq_zero ((Real.sqrt_eq_zero (h.nonneg _)).1 b0)
  have hBv : B sys v = alpha • v + st.beta • st.vold := by
    have : B sys v = vhat + alpha • v + st.beta • st.vold := by rw [hvhat, hvhat0, B_apply]; module
    rw [this, v0, zero_add]
  have e : B sys (st.wtt + (-l1) • st.w) = 0 := by
    rw [map_add, map_smul, i.wtt, hBv]
    rcases i.w_eq with ⟨s0, t0⟩ | ⟨e, _⟩
    · have c2 : st.c ^ 2 = 1 := by have := i.cs; rw [s0] at this; linarith
      have al : alpha = 0 := by
        rw [hat, s0] at a0
        have : st.c * alpha = 0 := by linarith
        rcases mul_eq_zero.1 this with e | e
        · rw [e] at c2; norm_num at c2
        · exact e
      rw [hl1, s0, t0, al]; module
    · rw [e, hl1]
      have cs := i.cs
      have e1 : -st.betatilde - (st.s * alpha - st.c * st.betatilde) * st.c = at' * st.s := by rw [hat]; linear_combination st.betatilde * cs
      have e2 : alpha - (st.s * alpha - st.c * st.betatilde) * st.s = at' * (-st.c) := by rw [hat]; linear_combination (-alpha) * cs
      have g : -(st.betatilde • u') + (alpha • v + st.beta • st.vold) - st.beta • st.vold + (-(st.s * alpha - st.c * st.betatilde)) • (st.c • u' + st.s • v) =
        (-st.betatilde - (st.s * alpha - st.c * st.betatilde) * st.c) • u' + (alpha - (st.s * alpha - st.c * st.betatilde) * st.s) • v := by module
      rw [g, e1, e2, a0]; module
  have w0 := hB _ e
  have w_part : l1 • st.w ∈ krylov sys b x0 k := by
    rcases i.w_eq with ⟨s0, t0⟩ | ⟨_, hw⟩
    · rw [hl1, s0, t0]; simp
    · exact Submodule.smul_mem _ _ hw
  have vin : v ∈ krylov sys b x0 k := by
    have : v = l1 • st.w - (st.wtt - v) := by
      have e : st.wtt = l1 • st.w := by rw [← sub_eq_zero, ← w0]; module
      rw [← e]; abel
    rw [this]
    exact Submodule.sub_mem _ w_part i.wtt_in
  have := i.v_orth v vin
  rw [i.v_unit] at this
  norm_num at this

/-- The state after `k` iterations, if it is a number. -/
def it (sys : Sys V) (s0 : St V) : Nat → Option (St V)
  | 0 => some s0
  | k + 1 => (it sys s0 k).bind (step sys)

theorem it_succ (s0 : St V) (k : Nat) (st1 : St V) (hs : it sys s0 (k + 1) = some st1) : ∃ st v, it sys s0 k = some st ∧ step sys st = some st1 ∧ st.v = some v := by
  obtain ⟨st, h1, h2⟩ := Option.bind_eq_some_iff.1 hs
  match hv : st.v with
  | none => unfold step at h2; rw [hv] at h2; exact absurd h2 (by simp)
  | some v => exact ⟨st, v, h1, h2, hv⟩

theorem it_inv (h : Symm sys) (b x0 : V) : ∀ k st, it sys (start sys b x0) k = some st →
    Good sys b x0 k st ∧ (∀ v, st.v = some v → ∃ u u', Inv sys b x0 k st v u u') ∧ (st.v = none → st.rho = 0) ∧ (st.v ≠ none → st.c ≠ 0 ∨ st.betatilde ≠ 0)
  | 0, st, hs => by
    injection hs with hs
    rw [← hs]
    refine ⟨start_good h b x0, fun v hv => ⟨v, 0, start_inv h b x0 v hv⟩, fun hn => ?_, fun _ => Or.inl (by simp [start])⟩
    unfold start at hn ⊢
    simp only at hn ⊢
    split at hn
    · assumption
    · exact absurd hn (by simp)
  | k + 1, st1, hs => by
    obtain ⟨st, v, h1, h2, h3⟩ := it_succ _ k st1 hs
    obtain ⟨_, hi, _, hp⟩ := it_inv h b x0 k st h1
    obtain ⟨u, u', i⟩ := hi v h3
    obtain ⟨g1, g2, g3, g4, g5, g6, g7⟩ := step_inv h b x0 k st st1 v u u' h3 i h2
    refine ⟨g1, fun v1 hv1 => ?_, g4, fun hn => ?_⟩
    · obtain ⟨u1, hu⟩ := g3 v1 hv1
      exact ⟨u1, u, hu⟩
    · by_cases hc : st1.c = 0
      · right
        rcases g5 hc with e | e
        · exact g7 hn e
        · rcases hp (by rw [h3]; simp) with e' | e'
          · exact g7 hn e'
          · exact absurd e e'
      · exact Or.inl hc

theorem it_lt (h : Symm sys) [FiniteDimensional ℝ V] (b x0 : V) : ∀ k st v, it sys (start sys b x0) k = some st → st.v = some v →
    Module.finrank ℝ (krylov sys b x0 k) = k ∧ k < Module.finrank ℝ V := by
  have lt : ∀ k st v, it sys (start sys b x0) k = some st → st.v = some v → Module.finrank ℝ (krylov sys b x0 k) = k → k < Module.finrank ℝ V := by
    intro k st v hs hv hf
    obtain ⟨u, u', i⟩ := (it_inv h b x0 k st hs).2.1 v hv
    rw [← hf]
    refine lt_of_not_ge fun hge => ?_
    have top : krylov sys b x0 k = ⊤ := Submodule.eq_top_of_finrank_eq (le_antisymm (Submodule.finrank_le _) hge)
    have := i.v_orth v (by rw [top]; trivial)
    rw [i.v_unit] at this
    norm_num at this
  intro k
  induction k with
  | zero =>
    intro st v hs hv
    have e : Module.finrank ℝ (krylov sys b x0 0) = 0 := by rw [kry_zero]; simp
    exact ⟨e, lt 0 st v hs hv e⟩
  | succ k ih =>
    intro st1 v1 hs hv1
    obtain ⟨st, v, h1, h2, h3⟩ := it_succ _ k st1 hs
    obtain ⟨u, u', i⟩ := (it_inv h b x0 k st h1).2.1 v h3
    have e : Module.finrank ℝ (krylov sys b x0 (k + 1)) = k + 1 := by
      have g := Submodule.finrank_sup_add_finrank_inf_eq (krylov sys b x0 k) (Submodule.span ℝ {v})
      have hv0 : v ≠ 0 := fun e => by have := i.v_unit; rw [e, h.zero] at this; norm_num at this
      have inf : krylov sys b x0 k ⊓ Submodule.span ℝ {v} = ⊥ := by
        rw [Submodule.eq_bot_iff]
        rintro z ⟨hz, hz'⟩
        obtain ⟨a, rfl⟩ := Submodule.mem_span_singleton.1 hz'
        have := i.v_orth _ hz
        rw [h.smul', i.v_unit, mul_one] at this
        rw [this, zero_smul]
      rw [inf, ← i.space, (ih st v h1 h3).1, finrank_span_singleton hv0, finrank_bot] at g
      omega
    exact ⟨e, lt (k + 1) st1 v1 hs hv1 e⟩

/-- What the loop does. -/
structure Runs (sys : Sys V) (small : ℝ → Bool) (stalled : ℝ → ℝ → Bool) (kill : Nat → Bool) (s0 : St V) (k n iter consec : Nat) (o : Out V) : Prop where
  nonempty : 0 < o.trace.length
  bound : o.trace.length ≤ n + 1
  states : ∀ j p, o.trace[j]? = some p → ∃ st, it sys s0 (k + j) = some st ∧ p = (st.state, st.rho)
  final : o.state = none ∨ ∃ p, o.trace[o.trace.length - 1]? = some p ∧ o.state = some (sys.Ks p.1)
  conv : o.converged = true → 2 ≤ o.trace.length ∧ o.iters = iter + o.trace.length - 2 ∧ o.state ≠ none ∧ ∃ p, o.trace[o.trace.length - 1]? = some p ∧ small p.2 = true
  notsmall : ∀ j p, 0 < j → o.trace[j]? = some p → (o.converged = false ∨ j + 1 < o.trace.length) → small p.2 = false
  reason : o.converged = false →
    (o.state = none ∧ o.trace.length ≤ n ∧ ∃ st, it sys s0 (k + (o.trace.length - 1)) = some st ∧ step sys st = none ∧ kill (iter + (o.trace.length - 1)) = false) ∨
    (o.state ≠ none ∧ (o.trace.length = n + 1 ∨ kill (iter + (o.trace.length - 1)) = true) ∧ o.iters = iter + (o.trace.length - 1)) ∨
    (o.state ≠ none ∧ 2 ≤ o.trace.length ∧ ∃ p q, o.trace[o.trace.length - 2]? = some p ∧ o.trace[o.trace.length - 1]? = some q ∧ stalled p.2 q.2 = true ∧ o.iters = iter + o.trace.length - 2 ∧
      (o.trace.length = 2 ∧ 1 ≤ consec ∨ 3 ≤ o.trace.length ∧ ∃ p', o.trace[o.trace.length - 3]? = some p' ∧ stalled p'.2 p.2 = true))
  giveup1 : 1 ≤ consec → ∀ p q, o.trace[0]? = some p → o.trace[1]? = some q → stalled p.2 q.2 = true → o.trace.length = 2
  giveup2 : ∀ j p q r, o.trace[j]? = some p → o.trace[j + 1]? = some q → o.trace[j + 2]? = some r → stalled p.2 q.2 = true → stalled q.2 r.2 = true → j + 3 = o.trace.length

theorem loop_runs (sys : Sys V) (small : ℝ → Bool) (stalled : ℝ → ℝ → Bool) (kill : Nat → Bool) (s0 : St V) (n : Nat) :
    ∀ k iter consec st, consec ≤ 1 → it sys s0 k = some st → Runs sys small stalled kill s0 k n iter consec (loop sys small stalled kill n iter consec st) := by
  have one : ∀ n k iter consec st (o : Out V), it sys s0 k = some st → o.trace = [(st.state, st.rho)] → o.converged = false →
      ((o.state = some (sys.Ks st.state) ∧ (1 = n + 1 ∨ kill iter = true) ∧ o.iters = iter) ∨ (o.state = none ∧ 1 ≤ n ∧ step sys st = none ∧ kill iter = false)) →
      Runs sys small stalled kill s0 k n iter consec o := by
    intro n k iter consec st o hs ht hc hr
    refine ⟨by simp [ht], by simp [ht], ?_, ?_, by simp [hc], ?_, ?_, by simp [ht], by simp [ht]⟩
    · intro j p hp
      rw [ht] at hp
      match j with
      | 0 => simp at hp; exact ⟨st, hs, hp.symm⟩
      | j + 1 => simp at hp
    · rcases hr with ⟨e, _⟩ | ⟨e, _⟩
      · exact Or.inr ⟨(st.state, st.rho), by simp [ht], e⟩
      · exact Or.inl e
    · intro j p hj hp
      rw [ht] at hp
      match j with
      | 0 => omega
      | j + 1 => simp at hp
    · intro _
      rcases hr with ⟨e, e2, e3⟩ | ⟨e, e2, e3, e4⟩
      · exact Or.inr (Or.inl ⟨by rw [e]; simp, by simpa [ht] using e2, by simpa [ht] using e3⟩)
      · exact Or.inl ⟨e, by simpa [ht] using e2, st, by simpa [ht] using hs, e3, by simpa [ht] using e4⟩
  have two : ∀ n k iter consec st st1 (o : Out V), it sys s0 k = some st → it sys s0 (k + 1) = some st1 → o.trace = [(st.state, st.rho), (st1.state, st1.rho)] →
      o.state = some (sys.Ks st1.state) → o.iters = iter → o.converged = small st1.rho → (o.converged = false → stalled st.rho st1.rho = true ∧ 1 ≤ consec) →
      Runs sys small stalled kill s0 k (n + 1) iter consec o := by
    intro n k iter consec st st1 o hs hs1 ht hst hi hc hstall
    refine ⟨by simp [ht], by simp [ht], ?_, Or.inr ⟨(st1.state, st1.rho), by simp [ht], hst⟩, ?_, ?_, ?_, by simp [ht], by simp [ht]⟩
    · intro j p hp
      rw [ht] at hp
      match j with
      | 0 => simp at hp; exact ⟨st, hs, hp.symm⟩
      | 1 => simp at hp; exact ⟨st1, hs1, hp.symm⟩
      | j + 2 => simp at hp
    · intro hct
      exact ⟨by simp [ht], by simp [ht, hi], by rw [hst]; simp, (st1.state, st1.rho), by simp [ht], by rw [← hc]; exact hct⟩
    · intro j p hj hp hor
      rw [ht] at hp
      match j with
      | 0 => omega
      | 1 =>
        simp at hp
        rcases hor with hf | hl
        · rw [← hp, ← hc]; exact hf
        · simp [ht] at hl
      | j + 2 => simp at hp
    · intro hf
      exact Or.inr (Or.inr ⟨by rw [hst]; simp, by simp [ht], (st.state, st.rho), (st1.state, st1.rho), by simp [ht], by simp [ht], (hstall hf).1, by simp [ht, hi], Or.inl ⟨by simp [ht], (hstall hf).2⟩⟩)
  induction n with
  | zero =>
    intro k iter consec st _ hs
    exact one 0 k iter consec st _ hs rfl rfl (Or.inl ⟨rfl, Or.inl rfl, rfl⟩)
  | succ n ih =>
    intro k iter consec st hcon hs
    unfold loop
    by_cases hk : kill iter = true
    · rw [if_pos hk]
      exact one (n + 1) k iter consec st _ hs rfl rfl (Or.inl ⟨rfl, Or.inr hk, rfl⟩)
    rw [if_neg hk]
    match hst : step sys st with
    | none => exact one (n + 1) k iter consec st _ hs rfl rfl (Or.inr ⟨rfl, by omega, hst, by simpa using hk⟩)
    | some st1 =>
      have hs1 : it sys s0 (k + 1) = some st1 := by show (it sys s0 k).bind (step sys) = _; rw [hs]; exact hst
      simp only
      by_cases hsm : small st1.rho = true
      · rw [if_pos hsm]
        exact two n k iter consec st st1 _ hs hs1 rfl rfl rfl hsm.symm (by simp)
      rw [if_neg hsm]
      have hsm' : small st1.rho = false := by simpa using hsm
      by_cases hst2 : 2 ≤ (if stalled st.rho st1.rho = true then consec + 1 else 0)
      · rw [if_pos hst2]
        refine two n k iter consec st st1 _ hs hs1 rfl rfl rfl hsm'.symm (fun _ => ?_)
        by_cases hf : stalled st.rho st1.rho = true
        · rw [if_pos hf] at hst2
          exact ⟨hf, by omega⟩
        · rw [if_neg hf] at hst2
          omega
      rw [if_neg hst2]
      have first : ∀ q, (loop sys small stalled kill n (iter + 1) (if stalled st.rho st1.rho = true then consec + 1 else 0) st1).trace[0]? = some q → q = (st1.state, st1.rho) := by
        intro q hq
        obtain ⟨s, h1, h2⟩ := (ih (k + 1) (iter + 1) (if stalled st.rho st1.rho = true then consec + 1 else 0) st1 (by omega) hs1).states 0 q hq
        rw [Nat.add_zero, hs1] at h1
        injection h1 with h1
        rw [h2, h1]
      obtain ⟨r1, r2, r3, r4, r5, r6, r7, r8, r9⟩ := ih (k + 1) (iter + 1) (if stalled st.rho st1.rho = true then consec + 1 else 0) st1 (by omega) hs1
      have hcs : 1 ≤ (if stalled st.rho st1.rho = true then consec + 1 else 0) ↔ stalled st.rho st1.rho = true := by
        by_cases hf : stalled st.rho st1.rho = true
        · simp [hf]
        · simp [hf]
      have hcs2 : stalled st.rho st1.rho = true → consec = 0 := by
        intro hf
        rw [if_pos hf] at hst2
        omega
      generalize loop sys small stalled kill n (iter + 1) (if stalled st.rho st1.rho = true then consec + 1 else 0) st1 = o at *
      have hlast : ∀ m, 0 < m → ((st.state, st.rho) :: o.trace)[m]? = o.trace[m - 1]? := by
        intro m hm
        match m with
        | m + 1 => simp
      refine ⟨by simp, by simpa using r2, ?_, ?_, ?_, ?_, ?_, ?_, ?_⟩
      · intro j p hp
        match j with
        | 0 => simp at hp; exact ⟨st, hs, hp.symm⟩
        | j + 1 =>
          simp at hp
          obtain ⟨s, h1, h2⟩ := r3 j p hp
          exact ⟨s, by rw [← h1]; congr 1; omega, h2⟩
      · rcases r4 with e | ⟨p, h1, h2⟩
        · exact Or.inl e
        · refine Or.inr ⟨p, ?_, h2⟩
          simp only [List.length_cons]
          rw [show o.trace.length + 1 - 1 = (o.trace.length - 1) + 1 by omega]
          simpa using h1
      · intro hc
        obtain ⟨h1, h2, h3, p, h4, h5⟩ := r5 hc
        refine ⟨by simp only [List.length_cons]; omega, ?_, h3, p, ?_, h5⟩
        · show o.iters = _
          rw [h2]; simp only [List.length_cons]; omega
        · simp only [List.length_cons]
          rw [show o.trace.length + 1 - 1 = (o.trace.length - 1) + 1 by omega]
          simpa using h4
      · intro j p hj hp hor
        match j with
        | 0 => omega
        | 1 =>
          obtain ⟨s, h1, h2⟩ := r3 0 p (by simpa using hp)
          rw [show k + 1 + 0 = k + 1 from rfl, hs1] at h1
          injection h1 with h1
          rw [h2, ← h1]; exact hsm'
        | j + 2 =>
          refine r6 (j + 1) p (by omega) (by simpa using hp) ?_
          rcases hor with e | e
          · exact Or.inl e
          · right; simp only [List.length_cons] at e; omega
      · intro hc
        rcases r7 hc with ⟨h1, h2, s, h3, h4, h5⟩ | ⟨h1, h2, h3⟩ | ⟨h1, h2, p, q, h3, h4, h5, h6, h7⟩
        · refine Or.inl ⟨h1, by simp only [List.length_cons]; omega, s, ?_, h4, ?_⟩
          · rw [← h3]; congr 1; simp only [List.length_cons]; omega
          · rw [← h5]; congr 1; simp only [List.length_cons]; omega
        · refine Or.inr (Or.inl ⟨h1, ?_, ?_⟩)
          · rcases h2 with e | e
            · left; simp only [List.length_cons]; omega
            · right; rw [← e]; congr 1; simp only [List.length_cons]; omega
          · show o.iters = _
            rw [h3]; simp only [List.length_cons]; omega
        · refine Or.inr (Or.inr ⟨h1, by simp only [List.length_cons]; omega, p, q, ?_, ?_, h5, ?_, ?_⟩)
          · simp only [List.length_cons]
            rw [show o.trace.length + 1 - 2 = (o.trace.length - 2) + 1 by omega]
            simpa using h3
          · simp only [List.length_cons]
            rw [show o.trace.length + 1 - 1 = (o.trace.length - 1) + 1 by omega]
            simpa using h4
          · show o.iters = _
            rw [h6]; simp only [List.length_cons]; omega
          · right
            rcases h7 with ⟨e1, e2⟩ | ⟨e1, p', e2, e3⟩
            · refine ⟨by simp only [List.length_cons]; omega, (st.state, st.rho), by simp [e1], ?_⟩
              rw [e1] at h3
              rw [first p h3]
              exact hcs.1 e2
            · refine ⟨by simp only [List.length_cons]; omega, p', ?_, e3⟩
              simp only [List.length_cons]
              rw [show o.trace.length + 1 - 3 = (o.trace.length - 3) + 1 by omega]
              simpa using e2
      · intro h1 p q hp hq hpq
        exfalso
        have e1 : (st.state, st.rho) = p := by simpa using hp
        have e2 := first q (by simpa using hq)
        rw [← e1, e2] at hpq
        have := hcs2 hpq
        omega
      · intro j p q r hp hq hr hpq hqr
        match j with
        | 0 =>
          have e1 : (st.state, st.rho) = p := by simpa using hp
          have e2 := first q (by simpa using hq)
          have hf : stalled st.rho st1.rho = true := by rw [← e1, e2] at hpq; exact hpq
          have := r8 (hcs.2 hf) q r (by simpa using hq) (by simpa using hr) hqr
          simp only [List.length_cons]; omega
        | j + 1 =>
          have := r9 j p q r (by simpa using hp) (by simpa using hq) (by simpa using hr) hpq hqr
          simp only [List.length_cons]; omega

theorem minres_runs (sys : Sys V) (small : ℝ → Bool) (stalled : ℝ → ℝ → Bool) (kill : Nat → Bool) (nIter : Nat) (b x0 : V) :
    Runs sys small stalled kill (start sys b x0) 0 nIter 0 0 (minres sys small stalled kill nIter b x0) := loop_runs sys small stalled kill _ nIter 0 0 0 _ (by omega) rfl

/-! ### The theorems -/

/-- **C84 (reported residual).** The number reported in each iteration is the norm of the residual of the state at that iteration; the returned state, if it is a number, is the last one; and if convergence is
announced, it is a number and its residual fulfils the criterion. -/
theorem C84_reported (h : Symm sys) (small : ℝ → Bool) (stalled : ℝ → ℝ → Bool) (kill : Nat → Bool) (nIter : Nat) (b x0 : V) :
    let o := minres sys small stalled kill nIter b x0
    o.trace[0]?.map Prod.fst = some x0 ∧ (∀ (j : Nat) (p : V × ℝ), o.trace[j]? = some p → p.2 = residualNorm sys b (sys.Ks p.1)) ∧
      (∀ y, o.state = some y → ∃ p : V × ℝ, o.trace[o.trace.length - 1]? = some p ∧ y = sys.Ks p.1) ∧
      (o.converged = true → ∃ y, o.state = some y ∧ small (residualNorm sys b y) = true) := by
  intro o
  obtain ⟨r1, r2, r3, r4, r5, r6, r7, _, _⟩ := minres_runs sys small stalled kill nIter b x0
  have rep : ∀ (j : Nat) (p : V × ℝ), o.trace[j]? = some p → p.2 = residualNorm sys b (sys.Ks p.1) := by
    intro j p hp
    obtain ⟨st, h1, h2⟩ := r3 j p hp
    have g := (it_inv h b x0 _ st h1).1
    rw [h2, norm_eq h, g.rho, Real.sqrt_sq g.rho_nonneg]
  refine ⟨?_, rep, ?_, ?_⟩
  · obtain ⟨st, h1, h2⟩ := r3 0 _ (List.getElem?_eq_getElem r1)
    injection h1 with h1
    rw [List.getElem?_eq_getElem r1, h2, ← h1]
    rfl
  · intro y hy
    rcases r4 with e | ⟨p, h1, h2⟩
    · exact absurd (hy.symm.trans e) (by simp)
    · exact ⟨p, h1, Option.some.inj (hy.symm.trans h2)⟩
  · intro hc
    obtain ⟨_, _, h3, p, h4, h5⟩ := r5 hc
    rcases r4 with e | ⟨q, h1, h2⟩
    · exact absurd e h3
    · refine ⟨_, h2, ?_⟩
      have : p = q := Option.some.inj (h4.symm.trans h1)
      rw [← this, ← rep _ p h4]; exact h5

/-- **C84 (minimal residual).** After `j` iterations no state that differs from the initial one by a combination of the first residual and `j - 1` applications of the operator has a smaller residual. -/
theorem C84_minimal (h : Symm sys) (small : ℝ → Bool) (stalled : ℝ → ℝ → Bool) (kill : Nat → Bool) (nIter : Nat) (b x0 : V) :
    ∀ j p, (minres sys small stalled kill nIter b x0).trace[j]? = some p → p.1 - x0 ∈ krylov sys b x0 j ∧
      ∀ z ∈ krylov sys b x0 j, residualNorm sys b (sys.Ks p.1) ≤ residualNorm sys b (sys.Ks (x0 + z)) := by
  intro j p hp
  obtain ⟨st, h1, h2⟩ := (minres_runs sys small stalled kill nIter b x0).states j p hp
  rw [Nat.zero_add] at h1
  have g := (it_inv h b x0 _ st h1).1
  rw [h2]
  refine ⟨g.inside, fun z hz => ?_⟩
  rw [norm_eq h, norm_eq h]
  refine Real.sqrt_le_sqrt ?_
  have e : x0 + z = st.state + (z - (st.state - x0)) := by abel
  have hz' := Submodule.sub_mem _ hz g.inside
  rw [e, res_add]
  generalize z - (st.state - x0) = y at hz'
  have o := g.orth y hz'
  rw [sub_eq_add_neg, h.add, h.add', h.add', h.neg', h.neg, h.neg', h.neg, o, h.symm (B sys y) (res sys b st.state), o]
  have := h.nonneg (B sys y)
  show sys.dot (res sys b st.state) (res sys b st.state) ≤ _
  linarith

/-- **C84 (progress).** The residual never grows, and two iterations together always reduce it. -/
theorem C84_progress (h : Symm sys) (small : ℝ → Bool) (stalled : ℝ → ℝ → Bool) (kill : Nat → Bool) (nIter : Nat) (b x0 : V) :
    let t := (minres sys small stalled kill nIter b x0).trace
    ∀ j p q, t[j]? = some p → t[j + 1]? = some q → q.2 ≤ p.2 ∧ ∀ r, t[j + 2]? = some r → r.2 < p.2 := by
  intro t j p q hp hq
  have hs := (minres_runs sys small stalled kill nIter b x0).states
  obtain ⟨st, a1, a2⟩ := hs j p hp
  obtain ⟨st1, b1, b2⟩ := hs (j + 1) q hq
  rw [Nat.zero_add] at a1 b1
  obtain ⟨st', v, h1, h2, h3⟩ := it_succ _ j st1 b1
  have e : st' = st := Option.some.inj (h1.symm.trans a1)
  rw [e] at h1 h2 h3
  have iv := it_inv h b x0 j st h1
  obtain ⟨u, u', i⟩ := iv.2.1 v h3
  have g := step_inv h b x0 j st st1 v u u' h3 i h2
  rw [a2, b2]
  refine ⟨g.2.1, fun r hr => ?_⟩
  obtain ⟨st2, c1, c2⟩ := hs (j + 2) r hr
  rw [Nat.zero_add] at c1
  obtain ⟨st1', v1, k1, k2, k3⟩ := it_succ _ (j + 1) st2 c1
  have e : st1' = st1 := Option.some.inj (k1.symm.trans b1)
  rw [e] at k1 k2 k3
  have iv1 := it_inv h b x0 (j + 1) st1 k1
  obtain ⟨w, w', i1⟩ := iv1.2.1 v1 k3
  have g1 := step_inv h b x0 (j + 1) st1 st2 v1 w w' k3 i1 k2
  rw [c2]
  show st2.rho < st.rho
  by_cases hc : st1.c = 0
  · have hb : st1.betatilde ≠ 0 := (iv1.2.2.2 (by rw [k3]; simp)).resolve_left (fun e => e hc)
    have hc2 : st2.c ≠ 0 := fun e => (g1.2.2.2.2.1 e).elim (fun e => e hc) hb
    exact lt_of_lt_of_le (g1.2.2.2.2.2.1 hc2) g.2.1
  · exact lt_of_le_of_lt g1.2.1 (g.2.2.2.2.2.1 hc)

/-- **C84 (end of the iteration).** The iteration does not go on after the criterion is met; it ends without convergence only at the iteration limit, when interrupted, when it gives up after two iterations with too little progress, or
when the state has become not a number. The value returned is the number of iterations before the last one made, or the limit. -/
theorem C84_ends (small : ℝ → Bool) (stalled : ℝ → ℝ → Bool) (kill : Nat → Bool) (nIter : Nat) (b x0 : V) :
    let o := minres sys small stalled kill nIter b x0
    (∀ (j : Nat) (p : V × ℝ), 0 < j → j + 1 < o.trace.length → o.trace[j]? = some p → small p.2 = false) ∧ o.trace.length ≤ nIter + 1 ∧
      (o.converged = true → o.iters + 2 = o.trace.length) ∧
      (o.converged = false → o.state ≠ none → (o.iters + 1 = o.trace.length ∧ (o.iters = nIter ∨ kill o.iters = true)) ∨
        (o.iters + 2 = o.trace.length ∧ ∃ (j : Nat) (p q r : V × ℝ), o.trace[j]? = some p ∧ o.trace[j + 1]? = some q ∧ o.trace[j + 2]? = some r ∧ stalled p.2 q.2 = true ∧ stalled q.2 r.2 = true ∧ j + 3 = o.trace.length)) ∧
      (∀ (j : Nat) (p q r : V × ℝ), o.trace[j]? = some p → o.trace[j + 1]? = some q → o.trace[j + 2]? = some r → stalled p.2 q.2 = true → stalled q.2 r.2 = true → j + 3 = o.trace.length) := by
  intro o
  have R := minres_runs sys small stalled kill nIter b x0
  have ne : 0 < o.trace.length := R.nonempty
  refine ⟨fun j p hj hl hp => R.notsmall j p hj hp (Or.inr hl), R.bound, fun hc => ?_, fun hc hs => ?_, R.giveup2⟩
  · have := R.conv hc
    have e : o.iters = 0 + o.trace.length - 2 := this.2.1
    have : 2 ≤ o.trace.length := this.1
    omega
  · rcases R.reason hc with ⟨h1, _⟩ | ⟨h1, h2, h3⟩ | ⟨h1, h2, p, q, h3, h4, h5, h6, h7⟩
    · exact absurd h1 hs
    · left
      have e : o.iters = 0 + (o.trace.length - 1) := h3
      refine ⟨by omega, ?_⟩
      rcases h2 with h2 | h2
      · left
        have : o.trace.length = nIter + 1 := h2
        omega
      · right
        rw [e]; exact h2
    · right
      have e : o.iters = 0 + o.trace.length - 2 := h6
      have h2' : 2 ≤ o.trace.length := h2
      obtain ⟨hl3, p', e5, e6⟩ := h7.resolve_left (by omega)
      have hl3' : 3 ≤ o.trace.length := hl3
      exact ⟨by omega, o.trace.length - 3, p', p, q, e5, by rw [← h3]; congr 1; show o.trace.length - 3 + 1 = o.trace.length - 2; omega,
        by rw [← h4]; congr 1; show o.trace.length - 3 + 2 = o.trace.length - 1; omega, e6, h5, by omega⟩

/-- **C84 (convergence), partial.** If operator and square root of the preconditioner are invertible and the initial state does not solve the equation, the state is always a number, and the solver announces convergence before
as many iterations as the dimension of the space, unless it gives up because the residual decreased too slowly in two iterations in a row. It does not give up if the
threshold for that is not positive. With zero tolerance the solution is exact. Missing: initial states that solve the equation, for which it is false, see `C84_start_violation`. -/
theorem C84_converges_partial [FiniteDimensional ℝ V] (h : Symm sys) (hA : ∀ z, sys.A z = 0 → z = 0) (hK : ∀ z, sys.Ks z = 0 → z = 0) (small : ℝ → Bool) (h0 : small 0 = true)
    (stalled : ℝ → ℝ → Bool) (nIter : Nat) (hn : Module.finrank ℝ V ≤ nIter) (b x0 : V) (hx : sys.A (sys.Ks x0) + b ≠ 0) :
    let o := minres sys small stalled (fun _ => false) nIter b x0
    o.state ≠ none ∧ o.iters < Module.finrank ℝ V ∧
      (o.converged = true ∨ ∃ j p q r, o.trace[j]? = some p ∧ o.trace[j + 1]? = some q ∧ o.trace[j + 2]? = some r ∧ stalled p.2 q.2 = true ∧ stalled q.2 r.2 = true ∧ j + 3 = o.trace.length) ∧
      (∀ j p q r, o.trace[j]? = some p → o.trace[j + 1]? = some q → o.trace[j + 2]? = some r → stalled p.2 q.2 = true → stalled q.2 r.2 = true → j + 3 = o.trace.length) ∧
      ((∀ p q, q ≤ p → stalled p q = false) → o.converged = true) ∧
      (o.converged = true → (∀ x, small x = true → x = 0) → ∀ y, o.state = some y → sys.A y + b = 0) := by
  intro o
  have hB : ∀ z, B sys z = 0 → z = 0 := fun z hz => hK _ (hA _ (hK _ hz))
  have R := minres_runs sys small stalled (fun _ => false) nIter b x0
  have rr : residualNorm sys b (sys.Ks x0) ≠ 0 := by
    intro e
    rw [norm_eq h, Real.sqrt_eq_zero (h.nonneg _)] at e
    have := h.eq_zero e
    rw [res_eq, neg_eq_zero] at this
    exact hx (hK _ this)
  have rep := C84_reported h small stalled (fun _ => false) nIter b x0
  -- a state without further directions has been reported as converged
  have nov : ∀ j st, it sys (start sys b x0) j = some st → st.v = none → j < o.trace.length → o.converged = false → False := by
    intro j st hs hv hj hc
    have hp := List.getElem?_eq_getElem hj
    obtain ⟨st', h1, h2⟩ := R.states j _ hp
    rw [Nat.zero_add, hs] at h1
    injection h1 with h1
    have z := (it_inv h b x0 j st hs).2.2.1 hv
    by_cases j0 : j = 0
    · have := (rep.2.1 j _ hp)
      rw [h2, ← h1, z] at this
      have e : st = start sys b x0 := by rw [j0] at hs; injection hs with hs; exact hs.symm
      rw [e] at this
      exact rr this.symm
    · have := R.notsmall j _ (by omega) hp (Or.inl hc)
      rw [h2, ← h1, z, h0] at this
      exact absurd this (by simp)
  have lenb : ∀ j st, it sys (start sys b x0) (j + 1) = some st → j < Module.finrank ℝ V := by
    intro j st hs
    obtain ⟨st', v, h1, h2, h3⟩ := it_succ _ j st hs
    exact (it_lt h b x0 j st' v h1 h3).2
  have lent : 2 ≤ o.trace.length → o.trace.length - 2 < Module.finrank ℝ V := by
    intro hl
    obtain ⟨st, h1, _⟩ := R.states (o.trace.length - 1) _ (List.getElem?_eq_getElem (by show o.trace.length - 1 < o.trace.length; omega))
    refine lenb _ st ?_
    rw [← h1]; congr 1; omega
  have notnone : o.converged = false → o.state ≠ none ∧ 2 ≤ o.trace.length ∧ ∃ p q, o.trace[o.trace.length - 2]? = some p ∧ o.trace[o.trace.length - 1]? = some q ∧ stalled p.2 q.2 = true ∧
      o.iters = 0 + o.trace.length - 2 ∧ (o.trace.length = 2 ∧ 1 ≤ 0 ∨ 3 ≤ o.trace.length ∧ ∃ p', o.trace[o.trace.length - 3]? = some p' ∧ stalled p'.2 p.2 = true) := by
    intro hc
    rcases R.reason hc with ⟨h1, h2, s, h3, h4, h5⟩ | ⟨h1, h2, h3⟩ | ⟨h1, h2, h3⟩
    · exfalso
      rw [Nat.zero_add] at h3
      match hv : s.v with
      | none => exact nov _ s h3 hv (by have : 0 < o.trace.length := R.nonempty; show o.trace.length - 1 < o.trace.length; omega) hc
      | some v =>
        obtain ⟨u, u', i⟩ := (it_inv h b x0 _ s h3).2.1 v hv
        obtain ⟨s1, hs1⟩ := step_some h hB b x0 _ s v u u' hv i
        exact absurd (hs1.symm.trans h4) (by simp)
    · exfalso
      have hl : o.trace.length = nIter + 1 := h2.resolve_right (by simp)
      obtain ⟨s, h4, _⟩ := R.states nIter _ (List.getElem?_eq_getElem (by show nIter < o.trace.length; omega))
      rw [Nat.zero_add] at h4
      match hv : s.v with
      | none => exact nov _ s h4 hv (by omega) hc
      | some v => have := (it_lt h b x0 _ s v h4 hv).2; omega
    · exact ⟨h1, h2, h3⟩
  have dich : o.converged = true ∨ o.converged = false := by cases o.converged <;> simp
  refine ⟨?_, ?_, ?_, R.giveup2, ?_, ?_⟩
  · rcases dich with hc | hc
    · exact (R.conv hc).2.2.1
    · exact (notnone hc).1
  · rcases dich with hc | hc
    · have := R.conv hc
      have e : o.iters = 0 + o.trace.length - 2 := this.2.1
      have := lent this.1
      omega
    · obtain ⟨_, hl, p, q, _, _, _, e, _⟩ := notnone hc
      have := lent hl
      omega
  · rcases dich with hc | hc
    · exact Or.inl hc
    · obtain ⟨_, hl, p, q, h1, h2, h3, _, h4⟩ := notnone hc
      obtain ⟨hl3, p', h5, h6⟩ := h4.resolve_left (by omega)
      exact Or.inr ⟨o.trace.length - 3, p', p, q, h5, by rw [← h1]; congr 1; omega, by rw [← h2]; congr 1; omega, h6, h3, by omega⟩
  · intro hst
    rcases dich with hc | hc
    · exact hc
    · exfalso
      obtain ⟨_, hl, p, q, h1, h2, h3, _, _⟩ := notnone hc
      have := (C84_progress h small stalled (fun _ => false) nIter b x0 (o.trace.length - 2) p q h1 (by rw [← h2]; congr 1; omega)).1
      rw [hst _ _ this] at h3
      exact absurd h3 (by simp)
  · intro hc hsm y hy
    obtain ⟨y', h1, h2⟩ := rep.2.2.2 hc
    have e : y' = y := Option.some.inj (h1.symm.trans hy)
    rw [e] at h2
    have z := hsm _ h2
    obtain ⟨p, _, hp⟩ := rep.2.2.1 y hy
    rw [hp, norm_eq h, Real.sqrt_eq_zero (h.nonneg _)] at z
    have := h.eq_zero z
    rw [res_eq, neg_eq_zero] at this
    rw [hp]
    exact hK _ this

/-- **C84 is false for the code** when the initial state already solves the equation, in particular when there is no perturbation (`b = 0`) and the initial state is zero: the first residual is divided by its norm
(LinearSolver.h:189), and the result is not a number, for every operator, preconditioner and tolerance. -/
theorem C84_start_violation (h : Symm sys) (small : ℝ → Bool) (stalled : ℝ → ℝ → Bool) (kill : Nat → Bool) (hk : kill 0 = false) (nIter : Nat) (hn : 0 < nIter) (b x0 : V) (hx : sys.A (sys.Ks x0) + b = 0) :
    (minres sys small stalled kill nIter b x0).state = none ∧ (minres sys small stalled kill nIter b x0).converged = false := by
  match nIter with
  | n + 1 =>
    have hv : (start sys b x0).v = none := by
      have hr : sys.Ks ((-1 : ℝ) • sys.A (sys.Ks x0) + (-1 : ℝ) • b) = 0 := by
        rw [← smul_add, hx, smul_zero, map_zero]
      unfold start
      simp only [hr, h.zero, Real.sqrt_zero, if_true]
    have hs : step sys (start sys b x0) = none := by unfold step; rw [hv]
    unfold minres loop
    rw [if_neg (by simp [hk]), hs]
    exact ⟨rfl, rfl⟩

/-! ### Cases -/

/-- The plane, with an indefinite operator that exchanges the axes. -/
def exSys : Sys (ℝ × ℝ) where
  A := { toFun := fun x => (x.2, x.1), map_add' := fun x y => rfl, map_smul' := fun a x => rfl }
  Ks := { toFun := fun x => (2 * x.1, x.2), map_add' := fun x y => by ext <;> simp; ring, map_smul' := fun a x => by ext <;> simp; ring }
  dot := fun x y => x.1 * y.1 + x.2 * y.2

theorem exSymm : Symm exSys := by
  refine ⟨fun x y z => ?_, fun a x y => ?_, fun x y => ?_, fun x hx => ?_, fun x y => ?_, fun x y => ?_⟩
  · show (x.1 + y.1) * z.1 + (x.2 + y.2) * z.2 = x.1 * z.1 + x.2 * z.2 + (y.1 * z.1 + y.2 * z.2); ring
  · show a * x.1 * y.1 + a * x.2 * y.2 = a * (x.1 * y.1 + x.2 * y.2); ring
  · show x.1 * y.1 + x.2 * y.2 = y.1 * x.1 + y.2 * x.2; ring
  · show 0 < x.1 * x.1 + x.2 * x.2
    by_contra hc
    have h1 : x.1 = 0 := by nlinarith [mul_self_nonneg x.1, mul_self_nonneg x.2]
    have h2 : x.2 = 0 := by nlinarith [mul_self_nonneg x.1, mul_self_nonneg x.2]
    exact hx (Prod.ext h1 h2)
  · show x.2 * y.1 + x.1 * y.2 = x.1 * y.2 + x.2 * y.1; ring
  · show 2 * x.1 * y.1 + x.2 * y.2 = x.1 * (2 * y.1) + x.2 * y.2; ring

/-- The hypotheses of the convergence theorem are met, for an indefinite operator. -/
example : (minres exSys (fun x => decide (x < 1 / 10)) (fun _ _ => false) (fun _ => false) 2 (1, 0) (0, 0)).converged = true := by
  refine (C84_converges_partial exSymm ?_ ?_ _ (by simp) _ 2 (by simp) (1, 0) (0, 0) ?_).2.2.2.2.1 (fun _ _ _ => rfl)
  · intro z hz
    have h1 : z.2 = 0 := congrArg Prod.fst hz
    have h2 : z.1 = 0 := congrArg Prod.snd hz
    exact Prod.ext h2 h1
  · intro z hz
    have h1 : 2 * z.1 = 0 := congrArg Prod.fst hz
    have h2 : z.2 = 0 := congrArg Prod.snd hz
    exact Prod.ext ((mul_eq_zero.1 h1).resolve_left (by norm_num)) h2
  · intro e
    have : exSys.A (exSys.Ks (0, 0)) + ((1, 0) : ℝ × ℝ) = (1, 0) := by rw [show ((0, 0) : ℝ × ℝ) = 0 from rfl, map_zero, map_zero, zero_add]
    rw [this] at e
    have := congrArg Prod.fst e
    norm_num at this

/-- The hypotheses of `C84_start_violation` are met without a perturbation. -/
example : (minres exSys (fun x => decide (x < 1 / 10)) (fun _ _ => false) (fun _ => false) 2 0 0).state = none :=
  (C84_start_violation exSymm _ _ _ rfl 2 (by norm_num) 0 0 (by simp)).1

end Jdftx.MinRes
