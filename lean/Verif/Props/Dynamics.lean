import Verif.Model.Dynamics
import Verif.Model.Constrain
import Mathlib.Algebra.Module.LinearMap.Basic
import Mathlib.Algebra.Module.LinearMap.End
import Mathlib.Algebra.Order.Ring.Rat
import Mathlib.Algebra.Field.Rat
import Mathlib.Algebra.BigOperators.Pi
import Mathlib.Algebra.BigOperators.Ring.Finset
import Mathlib.Algebra.Module.BigOperators
import Mathlib.Algebra.CharP.Defs
import Mathlib.Algebra.CharZero.Defs
import Mathlib.Data.Fintype.BigOperators
import Mathlib.Tactic.Module
import Mathlib.Tactic.FieldSimp
import Mathlib.Tactic.FinCases

/-!
# C46 (molecular dynamics: time reversal and momentum) and C47 (accumulated density)
-/
namespace Jdftx.Dyn

variable {K V : Type} [Field K] [AddCommGroup V] [Module K V]

/-- What holds of every state of a run without thermostat. -/
structure Inv (env : Env K V) (s : St V) : Prop where
  acc : computePE env s.pos = .ok s.accel
  accP : env.constrain s.accel = s.accel
  vel : env.constrain (env.R s.vel) = env.R s.vel
  noV : s.accelV = 0

/-- Reversed velocities. -/
def rev (s : St V) : St V := { s with vel := -s.vel }

theorem inv_rev (env : Env K V) (P : V →ₗ[K] V) (hP : env.constrain = P) (s : St V) (h : Inv env s) : Inv env (rev s) := by
  refine ⟨h.acc, h.accP, ?_, h.noV⟩
  have := h.vel
  rw [hP] at this ⊢
  show P (env.R (-s.vel)) = env.R (-s.vel)
  rw [map_neg, map_neg, this]

theorem computePE_proj (env : Env K V) (P : V →ₗ[K] V) (hP : env.constrain = P) (hPP : ∀ x, P (P x) = P x) (x a : V)
    (h : computePE env x = .ok a) : env.constrain a = a := by
  unfold computePE at h
  split at h
  · cases h
  · cases h; rw [hP]; exact hPP _

theorem init_inv (env : Env K V) (P : V →ₗ[K] V) (hP : env.constrain = P) (hPP : ∀ x, P (P x) = P x)
    (hT : env.thermo = noThermo) (pos vel : V) (s : St V) (h : initRun env pos vel = .ok s) :
    Inv env s ∧ s.pos = pos ∧ s.vel = env.R.symm (P (env.R vel)) := by
  unfold initRun at h
  split at h
  · cases h
  · rename_i a ha
    cases h
    refine ⟨⟨ha, computePE_proj env P hP hPP _ _ ha, ?_, by rw [hT]; rfl⟩, rfl, ?_⟩
    · simp only [getVelocities, setVelocities, LinearEquiv.apply_symm_apply]
      rw [hP]; exact hPP _
    · simp only [getVelocities, setVelocities, hP]

theorem step_rev (env : Env K V) (P : V →ₗ[K] V) (hP : env.constrain = P) (hPP : ∀ x, P (P x) = P x)
    (hT : env.thermo = noThermo) (s s' : St V) (hs : Inv env s) (h : stepRun env s = .ok s') :
    Inv env s' ∧ stepRun env (rev s') = .ok (rev s) := by
  have hv := hs.vel
  have hnV := hs.noV
  unfold stepRun at h
  simp only [getVelocities, hv, hnV, hT, noThermo] at h
  split at h
  · cases h
  · rename_i a ha
    cases h
    have hap := computePE_proj env P hP hPP _ _ ha
    have hvel : env.constrain (env.R (setVelocities env (env.R s.vel + (1/2*env.dt) • (s.accel + 0) + (1/2*env.dt) • (a + 0)
        + (1/2*env.dt) • ((0:V) - 0)))) = env.R (setVelocities env (env.R s.vel + (1/2*env.dt) • (s.accel + 0) + (1/2*env.dt) • (a + 0)
        + (1/2*env.dt) • ((0:V) - 0))) := by
      simp only [setVelocities, LinearEquiv.apply_symm_apply]
      have h1 := hs.accP
      rw [hP] at hv hap h1 ⊢
      simp only [map_add, map_smul, map_sub, map_zero, hv, hap, h1]
    refine ⟨⟨ha, hap, hvel, rfl⟩, ?_⟩
    have hneg : env.constrain (env.R (-(setVelocities env (env.R s.vel + (1/2*env.dt) • (s.accel + 0) + (1/2*env.dt) • (a + 0)
        + (1/2*env.dt) • ((0:V) - 0))))) = -env.R (setVelocities env (env.R s.vel + (1/2*env.dt) • (s.accel + 0) + (1/2*env.dt) • (a + 0)
        + (1/2*env.dt) • ((0:V) - 0))) := by
      rw [hP] at hvel ⊢
      rw [map_neg, map_neg, hvel]
    have hpos : s.pos + env.dt • env.R.symm (env.R s.vel + (1/2*env.dt) • (s.accel + 0))
        + env.dt • env.R.symm (-env.R (setVelocities env (env.R s.vel + (1/2*env.dt) • (s.accel + 0) + (1/2*env.dt) • (a + 0)
        + (1/2*env.dt) • ((0:V) - 0))) + (1/2*env.dt) • (a + 0)) = s.pos := by
      simp only [setVelocities, LinearEquiv.apply_symm_apply, map_add, map_neg, map_smul, map_sub, map_zero,
        LinearEquiv.symm_apply_apply]
      module
    unfold stepRun
    simp only [rev, getVelocities, hneg, hT, noThermo, hpos, hs.acc]
    congr 1
    have : setVelocities env (-env.R (setVelocities env (env.R s.vel + (1/2*env.dt) • (s.accel + 0) + (1/2*env.dt) • (a + 0)
        + (1/2*env.dt) • ((0:V) - 0))) + (1/2*env.dt) • (a + 0) + (1/2*env.dt) • (s.accel + 0) + (1/2*env.dt) • ((0:V) - 0)) = -s.vel := by
      simp only [setVelocities, LinearEquiv.apply_symm_apply, map_add, map_neg, map_smul, map_sub, map_zero,
        LinearEquiv.symm_apply_apply]
      module
    rw [this]
    cases s; simp only at hnV ⊢; rw [hnV]

theorem steps_succ (env : Env K V) (n : Nat) (s : St V) : steps env (n+1) s = (stepRun env s).bind (steps env n) := by
  unfold steps
  cases stepRun env s <;> rfl

/-- Splitting off the last step. -/
theorem steps_last (env : Env K V) (n : Nat) : ∀ s, steps env (n+1) s = (steps env n s).bind (stepRun env) := by
  induction n with
  | zero =>
    intro s
    rw [steps_succ]
    show (stepRun env s).bind (fun s => Except.ok s) = stepRun env s
    cases stepRun env s <;> rfl
  | succ n ih =>
    intro s
    rw [steps_succ, steps_succ]
    cases h : stepRun env s with
    | error e => rfl
    | ok s' => exact ih s'

theorem steps_rev (env : Env K V) (P : V →ₗ[K] V) (hP : env.constrain = P) (hPP : ∀ x, P (P x) = P x)
    (hT : env.thermo = noThermo) (n : Nat) : ∀ s s', Inv env s → steps env n s = .ok s' →
    Inv env s' ∧ steps env n (rev s') = .ok (rev s) := by
  induction n with
  | zero => intro s s' hs h; cases h; exact ⟨hs, rfl⟩
  | succ n ih =>
    intro s s' hs h
    have h' := h
    rw [steps_succ] at h'
    cases h1 : stepRun env s with
    | error e => rw [h1] at h'; cases h'
    | ok s1 =>
      rw [h1] at h'
      obtain ⟨i1, r1⟩ := step_rev env P hP hPP hT s s1 hs h1
      obtain ⟨i2, r2⟩ := ih s1 s' i1 h'
      refine ⟨i2, ?_⟩
      rw [steps_last, r2]
      exact r1

/-- **C46 (time reversal).** Without a thermostat, for every force field, lattice, time step, number of steps and initial
condition, and for any linear idempotent constraint: if a run of `n` steps succeeds, then the run of `n` steps from its final
positions with reversed final velocities succeeds too and ends at the initial positions with the reversed initial
(constrained) velocities. -/
theorem C46_reversible (env : Env K V) (P : V →ₗ[K] V) (hP : env.constrain = P) (hPP : ∀ x, P (P x) = P x)
    (hT : env.thermo = noThermo) (n : Nat) (pos vel pos' vel' : V) (h : run env n pos vel = .ok (pos', vel')) :
    run env n pos' (-vel') = .ok (pos, -(env.R.symm (P (env.R vel)))) := by
  unfold run at h
  split at h
  · cases h
  rename_i s hi
  split at h
  · cases h
  rename_i s' hs'
  cases h
  obtain ⟨i0, hp, hv⟩ := init_inv env P hP hPP hT pos vel s hi
  obtain ⟨i1, r1⟩ := steps_rev env P hP hPP hT n s s' i0 hs'
  have hinit : initRun env s'.pos (-s'.vel) = .ok (rev s') := by
    have hh := (inv_rev env P hP s' i1).vel
    unfold initRun
    simp only [rev] at hh
    simp only [i1.acc, getVelocities, hh, setVelocities, LinearEquiv.symm_apply_apply, hT, noThermo, rev, i1.noV]
  unfold run
  simp only [hinit, r1]
  simp only [rev, hp, hv]

/-- The same with initial velocities that satisfy the constraints: full return. -/
theorem C46_reversible_exact (env : Env K V) (P : V →ₗ[K] V) (hP : env.constrain = P) (hPP : ∀ x, P (P x) = P x)
    (hT : env.thermo = noThermo) (n : Nat) (pos vel pos' vel' : V) (hv : P (env.R vel) = env.R vel)
    (h : run env n pos vel = .ok (pos', vel')) : run env n pos' (-vel') = .ok (pos, -vel) := by
  rw [C46_reversible env P hP hPP hT n pos vel pos' vel' h, hv, LinearEquiv.symm_apply_apply]

/-! ### Momentum -/
section momentum
open Jdftx.Ion

variable {m : Nat} [LinearOrder K]

/-- Total momentum of Cartesian velocities. -/
def momentum (mass : Fin m → K) (v : Fin m → Fin 3 → K) : Fin 3 → K := ∑ a, mass a • v a

/-- Dynamics of `m` atoms in a given cell: forces per atom, masses, no constrained atom, no symmetries and no thermostat
(IonicMinimizer.cpp:315-322 with 385-397). -/
def freeEnv (R : (Fin m → Fin 3 → K) ≃ₗ[K] (Fin m → Fin 3 → K)) (force : (Fin m → Fin 3 → K) → Option (Fin m → Fin 3 → K))
    (mass : Fin m → K) (dt : K) : Env K (Fin m → Fin 3 → K) where
  R := R
  constrain := constrain (L := Nat) 0 false (fun _ => ⟨1, .none⟩) id
  rawAccel := fun pos => (force pos).map fun F a => (1 / mass a) • F a
  thermo := noThermo
  dt := dt

/-- Without constrained atoms and symmetries only the mean is subtracted. -/
theorem constrain_free (x : Fin m → Fin 3 → K) :
    constrain (L := Nat) 0 false (fun _ => ⟨1, .none⟩) id x = fun a => x a - (1 / (m : K)) • ∑ b, x b := by
  have h1 : groupLabels (K := K) (L := Nat) (fun _ : Fin m => ⟨1, .none⟩) = [] := by
    have : ∀ l : List (Fin m), (l.flatMap fun _ => ([] : List Nat)) = [] := by intro l; induction l <;> simp_all
    unfold groupLabels labelsOf
    simp only [this, List.foldl_nil]
  have h2 : anyConstrained (K := K) (L := Nat) (fun _ : Fin m => ⟨1, .none⟩) false = false := by
    simp [anyConstrained, getDimension]
  have h3 : perAtom (K := K) (L := Nat) (fun _ : Fin m => ⟨1, .none⟩) x = x := by
    funext a; simp [perAtom, applyOne]
  simp only [constrain, id, constrainCore, h1, h2, h3, List.foldl_nil]
  rfl

omit [LinearOrder K] in
theorem mean_zero [CharZero K] (hm : 0 < m) (x : Fin m → Fin 3 → K) : ∑ a, (x a - (1 / (m : K)) • ∑ b, x b) = 0 := by
  have h : (m : K) ≠ 0 := by exact_mod_cast hm.ne'
  rw [Finset.sum_sub_distrib, Finset.sum_const, Finset.card_univ, Fintype.card_fin, ← Nat.cast_smul_eq_nsmul K, smul_smul,
    mul_one_div_cancel h, one_smul, sub_self]

theorem step_sum_zero [CharZero K] (hm : 0 < m) (R : (Fin m → Fin 3 → K) ≃ₗ[K] (Fin m → Fin 3 → K))
    (force : (Fin m → Fin 3 → K) → Option (Fin m → Fin 3 → K)) (mass : Fin m → K) (dt : K)
    (s s' : St (Fin m → Fin 3 → K)) (ha : ∑ a, s.accel a = 0) (hV : s.accelV = 0)
    (h : stepRun (freeEnv R force mass dt) s = .ok s') :
    ∑ a, R s'.vel a = 0 ∧ ∑ a, s'.accel a = 0 ∧ s'.accelV = 0 := by
  unfold stepRun at h
  simp only at h
  split at h
  · cases h
  rename_i acc hacc
  cases h
  have hac : ∑ a, acc a = 0 := by
    unfold computePE at hacc
    split at hacc
    · cases hacc
    · cases hacc; simp only [freeEnv, constrain_free]; exact mean_zero hm _
  refine ⟨?_, hac, rfl⟩
  simp only [setVelocities, getVelocities, freeEnv, constrain_free, LinearEquiv.apply_symm_apply, hV, noThermo, add_zero, sub_self, smul_zero,
    Pi.add_apply, Pi.smul_apply, Finset.sum_add_distrib, ← Finset.smul_sum, ha, hac, mean_zero hm]

theorem steps_sum_zero [CharZero K] (hm : 0 < m) (R : (Fin m → Fin 3 → K) ≃ₗ[K] (Fin m → Fin 3 → K))
    (force : (Fin m → Fin 3 → K) → Option (Fin m → Fin 3 → K)) (mass : Fin m → K) (dt : K) (n : Nat) :
    ∀ s s' : St (Fin m → Fin 3 → K), ∑ a, R s.vel a = 0 → ∑ a, s.accel a = 0 → s.accelV = 0 →
    steps (freeEnv R force mass dt) n s = .ok s' → ∑ a, R s'.vel a = 0 := by
  induction n with
  | zero => intro s s' h1 _ _ h; cases h; exact h1
  | succ n ih =>
    intro s s' h1 h2 h3 h
    have h' := h
    rw [steps_succ] at h'
    cases hs : stepRun (freeEnv R force mass dt) s with
    | error e => rw [hs] at h'; cases h'
    | ok s1 =>
      rw [hs] at h'
      obtain ⟨a, b, c⟩ := step_sum_zero hm R force mass dt s s1 h2 h3 hs
      exact ih s1 s' a b c h'

/-- What the code conserves: for every force field, masses, time step, number of steps and initial condition, the sum of
the Cartesian velocities (not weighted by mass) is zero at the end. -/
theorem C46_velocity_sum [CharZero K] (hm : 0 < m) (R : (Fin m → Fin 3 → K) ≃ₗ[K] (Fin m → Fin 3 → K))
    (force : (Fin m → Fin 3 → K) → Option (Fin m → Fin 3 → K)) (mass : Fin m → K) (dt : K) (n : Nat)
    (pos vel pos' vel' : Fin m → Fin 3 → K) (h : run (freeEnv R force mass dt) n pos vel = .ok (pos', vel')) :
    ∑ a, R vel' a = 0 := by
  unfold run at h
  split at h
  · cases h
  rename_i s hi
  split at h
  · cases h
  rename_i s' hs'
  cases h
  unfold initRun at hi
  split at hi
  · cases hi
  rename_i acc hacc
  cases hi
  refine steps_sum_zero hm R force mass dt n _ s' ?_ ?_ rfl hs'
  · simp only [setVelocities, getVelocities, freeEnv, constrain_free, LinearEquiv.apply_symm_apply, mean_zero hm]
  · unfold computePE at hacc
    split at hacc
    · cases hacc
    · cases hacc; simp only [freeEnv, constrain_free]; exact mean_zero hm _

/-- **C46 (momentum), partial.** If all masses are equal, the total momentum is the same (zero) after any number of steps.
Missing: atoms of different mass, for which the claim is false, see `C46_momentum_violation`. -/
theorem C46_momentum_partial [CharZero K] (hm : 0 < m) (R : (Fin m → Fin 3 → K) ≃ₗ[K] (Fin m → Fin 3 → K))
    (force : (Fin m → Fin 3 → K) → Option (Fin m → Fin 3 → K)) (mass0 : K) (dt : K) (n k : Nat)
    (pos vel pos1 vel1 pos2 vel2 : Fin m → Fin 3 → K)
    (h1 : run (freeEnv R force (fun _ => mass0) dt) n pos vel = .ok (pos1, vel1))
    (h2 : run (freeEnv R force (fun _ => mass0) dt) k pos vel = .ok (pos2, vel2)) :
    momentum (fun _ => mass0) (R vel1) = momentum (fun _ => mass0) (R vel2) := by
  unfold momentum
  rw [← Finset.smul_sum, ← Finset.smul_sum, C46_velocity_sum hm R force _ dt n pos vel pos1 vel1 h1,
    C46_velocity_sum hm R force _ dt k pos vel pos2 vel2 h2]

/-- Constant opposite forces on two atoms. -/
def pushForce : (Fin 2 → Fin 3 → Rat) → Option (Fin 2 → Fin 3 → Rat) :=
  fun _ => some fun a i => if i = 0 then (if a = 0 then 1 else -1) else 0

/-- Masses 1 and 2. -/
def twoMasses : Fin 2 → Rat := fun a => if a = 0 then 1 else 2

/-- First Cartesian component of the total momentum after a run of two atoms pushed apart. -/
def momentumAfter (n : Nat) : Option Rat :=
  match run (freeEnv (LinearEquiv.refl Rat _) pushForce twoMasses 1) n 0 0 with
  | .ok r => some (momentum twoMasses r.2 0)
  | .error _ => none

/-- **C46 (momentum) is false for the code** with unequal masses: opposite forces on atoms of mass 1 and 2 change the total
momentum from 0 to -3/4 in one step, because the mean acceleration, not the centre-of-mass acceleration, is subtracted
(IonicMinimizer.cpp:315-322, 385-397). -/
theorem C46_momentum_violation :
    (∀ pos F, pushForce pos = some F → ∑ a, F a = 0) ∧ momentumAfter 0 = some 0 ∧ momentumAfter 1 = some (-3/4) := by
  refine ⟨?_, by decide +kernel, by decide +kernel⟩
  intro pos F hF
  cases hF
  funext i
  rw [Finset.sum_apply]
  simp only [Fin.sum_univ_two]
  fin_cases i <;> decide +kernel

end momentum

/-! ### Accumulated density -/
section accum
variable [DecidableEq K] {F : Type} [AddCommGroup F] [Module K F]

theorem accumStep_mean [CharZero K] (dt : K) (hdt : dt ≠ 0) (iter : Nat) (n acc : F) :
    accumStep dt iter n acc = some (acc + (1 / ((iter : K) + 1)) • (n - acc)) := by
  have h1 : ((iter : K) + 1) ≠ 0 := by exact_mod_cast Nat.succ_ne_zero iter
  have h2 : (iter : K) * dt + dt = ((iter : K) + 1) * dt := by ring
  unfold accumStep
  simp only [h2]
  rw [if_neg (mul_ne_zero h1 hdt)]
  congr 3
  field_simp

theorem accumRun_mean [CharZero K] (dt : K) (hdt : dt ≠ 0) (ns : List F) : ∀ (iter : Nat) (acc S : F),
    (iter : K) • acc = S → ∃ r, accumRun dt iter ns acc = some r ∧ ((iter + ns.length : Nat) : K) • r = S + ns.sum := by
  induction ns with
  | nil => intro iter acc S h; exact ⟨acc, rfl, by simpa using h⟩
  | cons n ns ih =>
    intro iter acc S h
    have h1 : ((iter : K) + 1) ≠ 0 := by exact_mod_cast Nat.succ_ne_zero iter
    have e : ((iter + 1 : Nat) : K) • (acc + (1 / ((iter : K) + 1)) • (n - acc)) = S + n := by
      rw [Nat.cast_add, Nat.cast_one, smul_add, smul_smul, mul_one_div_cancel h1, ← h]
      module
    obtain ⟨r, hr, hs⟩ := ih (iter+1) _ _ e
    refine ⟨r, ?_, ?_⟩
    · show (match accumStep dt iter n acc with | none => none | some acc' => accumRun dt (iter+1) ns acc') = some r
      rw [accumStep_mean dt hdt]; exact hr
    · rw [List.length_cons, List.sum_cons, ← add_assoc S, ← hs]
      congr 2; omega

/-- **C47.** For every non-zero time step, every starting value of the accumulator and every non-empty sequence of
densities, the accumulated density after the run is the arithmetic mean of the densities after each step. -/
theorem C47_mean [CharZero K] (dt : K) (hdt : dt ≠ 0) (ns : List F) (hns : ns ≠ []) (start : F) :
    accumRun dt 0 ns start = some ((1 / (ns.length : K)) • ns.sum) := by
  obtain ⟨r, hr, hs⟩ := accumRun_mean dt hdt ns 0 start 0 (by simp)
  have hl : (ns.length : K) ≠ 0 := by
    have : ns.length ≠ 0 := by simpa using hns
    exact_mod_cast this
  rw [hr]
  congr 1
  rw [zero_add, zero_add] at hs
  rw [← hs, smul_smul, one_div_mul_cancel hl, one_smul]

/-- A zero time step divides zero by zero. -/
theorem C47_zero_step (n start : F) (ns : List F) : accumRun (0 : K) 0 (n :: ns) start = none := by
  simp [accumRun, accumStep]

example : accumRun (1/2 : Rat) 0 [3, 4, 8] (100 : Rat) = some 5 := by decide +kernel

end accum

/-- A spring between two atoms in a non-trivial cell, with the constraint of zero mean: the hypotheses of
`C46_reversible_exact` are met and the run moves. -/
def springEnv : Env Rat (Fin 2 → Fin 3 → Rat) :=
  freeEnv (LinearEquiv.refl Rat _) (fun x => some fun a i => if a = 0 then x 1 i - x 0 i else x 0 i - x 1 i) (fun _ => 1) (1/2)

/-- The mean-subtracting constraint of `freeEnv` as linear map. -/
def meanFree : (Fin 2 → Fin 3 → Rat) →ₗ[Rat] (Fin 2 → Fin 3 → Rat) where
  toFun := springEnv.constrain
  map_add' := by intro x y; funext a i; simp [springEnv, freeEnv, constrain_free, Fin.sum_univ_two]; ring
  map_smul' := by intro c x; funext a i; simp [springEnv, freeEnv, constrain_free, Fin.sum_univ_two]; ring

example : springEnv.constrain = meanFree ∧ (∀ x, meanFree (meanFree x) = meanFree x) ∧ springEnv.thermo = noThermo := by
  refine ⟨rfl, ?_, rfl⟩
  intro x; funext a i; simp [meanFree, springEnv, freeEnv, constrain_free, Fin.sum_univ_two]

def firstX (r : Res ((Fin 2 → Fin 3 → Rat) × (Fin 2 → Fin 3 → Rat))) : Option Rat :=
  match r with | .ok p => some (p.1 0 0) | .error _ => none

example : firstX (run springEnv 3 (fun a _ => if a = 0 then 0 else 1) 0) = some (25/32) := by decide +kernel

end Jdftx.Dyn
