import Verif.Lemmas.Thermostat
import Verif.Props.Constrain
import Mathlib.LinearAlgebra.Trace
import Mathlib.LinearAlgebra.Dimension.Constructions

/-!
# C89: energy and temperature in molecular dynamics with thermostats and barostats

The velocities `v`, the lattice `R` and the chains of thermostats change as the code integrates them: the atoms accelerate by
the constrained force divided by mass plus the rate returned by `thermostat`, the lattice by its strain rate
(LatticeMinimizer.cpp:169-171), the chains by the returned rates. Discretisation in time is not part of these statements; C46 has
the integrator.
-/
namespace Jdftx.Stat
open Jdftx.M3 Jdftx.Ion

/-- The motion of the system is described at time `t` by the rates of the code: `F` is the force on every atom, `stress` the
stress without kinetic part, `PE` the potential energy. That force and stress are the derivatives of the energy is `energy`. -/
structure Moves {n : Nat} (p : Params) (s : Sys n) (R : ℝ → Mat ℝ) (v : ℝ → Vel n) (PE : ℝ → ℝ) (F : Motion ℝ n) (stress : Mat ℝ)
    (t : ℝ) : Prop where
  /-- Forces and stress give the change of the energy. -/
  energy : HasDerivAt PE (-power F (v t).ion + |det (R t)| * contract stress (v t).lat) t
  /-- LatticeMinimizer.cpp:169-171. -/
  lattice : ∀ i j, HasDerivAt (fun τ => R τ i j) (mulMM (v t).lat (R t) i j) t
  cell : det (R t) ≠ 0
  /-- IonicDynamics.cpp:123: velocities respect the constraints. -/
  conIon : s.con (v t).ion = (v t).ion
  conLat : s.conL (v t).lat = (v t).lat
  /-- IonicDynamics.cpp:263-282: accelerations are those of `computePE` and `thermostat`. -/
  rates : ∃ r, thermostat p s |det (R t)| stress (v t) = .ok r ∧
    (∀ a i, HasDerivAt (fun τ => (v τ).ion a i) (s.con (fun a => (1 / s.mass a) • F a) a i + r.ion a i) t) ∧
    (∀ i j, HasDerivAt (fun τ => (v τ).lat i j) (r.lat i j) t) ∧
    (∀ j, HasDerivAt (fun τ => (v τ).th j) (r.th j) t) ∧ (∀ j, HasDerivAt (fun τ => (v τ).ba j) (r.ba j) t)

/-- What a constraint needs in order to do no work: it is symmetric in the scalar product weighted with the masses. -/
def Workless {n : Nat} (mass : Fin n → ℝ) (con : Motion ℝ n → Motion ℝ n) : Prop :=
  ∀ u w, massDot mass u (con w) = massDot mass (con u) w

/-- The same for the lattice. -/
def WorklessL (conL : Mat ℝ → Mat ℝ) : Prop := ∀ a b, contract a (conL b) = contract (conL a) b

/-- **C89 (no thermostat).** Kinetic plus potential energy is conserved. -/
theorem C89_energy {n : Nat} (p : Params) (s : Sys n) (hmeth : p.method = .none) (hmass : ∀ a, s.mass a ≠ 0)
    (hcon : Workless s.mass s.con) (R : ℝ → Mat ℝ) (v : ℝ → Vel n) (PE : ℝ → ℝ) (F : Motion ℝ n) (stress : Mat ℝ) (t : ℝ)
    (hlat : (v t).lat = 0) (h : Moves p s R v PE F stress t) :
    HasDerivAt (fun τ => atomKE s.mass (v τ).ion + PE τ) 0 t := by
  obtain ⟨r, hr, hion, -⟩ := h.rates
  simp only [thermostat, hmeth] at hr
  cases hr
  refine ((atomKE_deriv s.mass _ (s.con (fun a => (1 / s.mass a) • F a)) t fun a i => (hion a i).congr_deriv (by simp)).fun_add
    h.energy).congr_deriv ?_
  rw [hcon, h.conIon, massDot_force s.mass hmass, hlat]
  simp [contract]

/-- Work done on the atoms by force, thermostat and strain. -/
theorem ion_power {n : Nat} (s : Sys n) (hmass : ∀ a, s.mass a ≠ 0) (hcon : Workless s.mass s.con) (v F : Motion ℝ n)
    (hv : s.con v = v) (g : ℝ) (e : Mat ℝ) (b : Bool) :
    massDot s.mass v (s.con (fun a => (1 / s.mass a) • F a) + s.con (fun a => g • v a - (if b then mulMV e (v a) else 0)))
      = power F v + 2 * g * atomKE s.mass v
        - (if b then contract (fun i j => ∑ a, s.mass a * (v a i * v a j)) e else 0) := by
  rw [massDot_add, hcon, hcon, hv, massDot_force s.mass hmass, massDot_sub, massDot_smul, atomKE_massDot]
  cases b
  · simp [massDot]; ring
  · simp only [if_true, massDot_strain]; ring

/-- **C89 (thermostat).** With a Nosé-Hoover chain, the energy of atoms and chain together with the heat taken up by the chain is
conserved. -/
theorem C89_thermostat_energy {n : Nat} (p : Params) (s : Sys n) (hmeth : p.method = .noseHoover) (hL : p.statL = false)
    (hT : p.lenT ≠ 0) (hT0 : p.T0 ≠ 0) (htau : p.tDampT ≠ 0) (hN : s.nDOF ≠ 0) (hmass : ∀ a, s.mass a ≠ 0)
    (hcon : Workless s.mass s.con) (R : ℝ → Mat ℝ) (v : ℝ → Vel n) (PE : ℝ → ℝ) (F : Motion ℝ n) (stress : Mat ℝ) (t : ℝ)
    (hlat : (v t).lat = 0) (h : Moves p s R v PE F stress t)
    (η : ℝ → Nat → ℝ) (hη : ∀ j, HasDerivAt (fun τ => η τ j) ((v t).th j) t) :
    HasDerivAt (fun τ => atomKE s.mass (v τ).ion + PE τ
      + (chainKE s.nDOF p.T0 (1 / p.tDampT) p.lenT (v τ).th + chainHeat s.nDOF p.T0 p.lenT (η τ))) 0 t := by
  obtain ⟨r, hr, hion, -, hth, -⟩ := h.rates
  simp only [thermostat, hmeth, hT, hL, if_false] at hr
  injection hr with hr
  subst hr
  simp only at hion hth
  have h1 := atomKE_deriv s.mass _ _ t hion
  have h3 := chain_deriv s.nDOF p.T0 (1 / p.tDampT) _ (by simpa using htau) p.lenT hT _ η t hth hη
  refine ((h1.fun_add h.energy).fun_add h3).congr_deriv ?_
  have := ion_power s hmass hcon (v t).ion F h.conIon (-(v t).th 0) (v t).lat false
  simp only [Bool.false_eq_true, if_false] at this
  simp only [Bool.false_eq_true, if_false]
  erw [this]
  have hN' : (s.nDOF : ℝ) ≠ 0 := by exact_mod_cast hN
  rw [kinetic_eq, hlat]
  simp only [contract, Pi.zero_apply, mul_zero, Finset.sum_const_zero]
  field_simp; ring

/-- **C89 (barostat).** With Nosé-Hoover chains for atoms and lattice, the energy of atoms, lattice and both chains together with
the heat taken up changes only by the work of the target stress. -/
theorem C89_barostat_energy {n : Nat} (p : Params) (s : Sys n) (hmeth : p.method = .noseHoover) (hL : p.statL = true)
    (hT : p.lenT ≠ 0) (hP : p.lenP ≠ 0) (hT0 : p.T0 ≠ 0) (htau : p.tDampT ≠ 0) (htauP : p.tDampP ≠ 0) (hN : s.nDOF ≠ 0)
    (hF : s.nFree ≠ 0) (hmass : ∀ a, s.mass a ≠ 0) (hcon : Workless s.mass s.con) (hconL : WorklessL s.conL)
    (R : ℝ → Mat ℝ) (v : ℝ → Vel n) (PE : ℝ → ℝ) (F : Motion ℝ n) (stress : Mat ℝ) (t : ℝ) (h : Moves p s R v PE F stress t)
    (η θ : ℝ → Nat → ℝ) (hη : ∀ j, HasDerivAt (fun τ => η τ j) ((v t).th j) t) (hθ : ∀ j, HasDerivAt (fun τ => θ τ j) ((v t).ba j) t) :
    HasDerivAt (fun τ => atomKE s.mass (v τ).ion + PE τ + strainKE ((s.nDOF + s.nFree) * p.T0 * p.tDampP ^ 2) (v τ).lat
      + (chainKE s.nDOF p.T0 (1 / p.tDampT) p.lenT (v τ).th + chainHeat s.nDOF p.T0 p.lenT (η τ))
      + (chainKE (s.nFree * (s.nFree + 1) / 2) p.T0 (1 / p.tDampP) p.lenP (v τ).ba
        + chainHeat (s.nFree * (s.nFree + 1) / 2) p.T0 p.lenP (θ τ)))
      (|det (R t)| * contract p.target (v t).lat) t := by
  obtain ⟨r, hr, hion, hlat, hth, hba⟩ := h.rates
  simp only [thermostat, hmeth, hT, hP, hL, if_false, if_true] at hr
  injection hr with hr
  subst hr
  simp only at hion hth hlat hba
  have hq : ((nDOFL s.nFree : Nat) : ℝ) = s.nFree * (s.nFree + 1) / 2 := by
    unfold nDOFL
    rw [Nat.cast_div (Nat.even_mul_succ_self _).two_dvd (by norm_num)]
    push_cast; ring
  have hq0 : (s.nFree * (s.nFree + 1) / 2 : ℝ) ≠ 0 := by
    have : (s.nFree : ℝ) ≠ 0 := by exact_mod_cast hF
    have h1 : (s.nFree : ℝ) + 1 ≠ 0 := by positivity
    positivity
  rw [hq] at hba
  generalize (s.nFree * (s.nFree + 1) / 2 : ℝ) = q at *
  have h1 := atomKE_deriv s.mass _ _ t hion
  have h2 := strainKE_deriv ((s.nDOF + s.nFree) * p.T0 * p.tDampP ^ 2) _ _ t hlat
  have h3 := chain_deriv s.nDOF p.T0 (1 / p.tDampT) _ (by simpa using htau) p.lenT hT _ η t hth hη
  have h4 := chain_deriv q p.T0 (1 / p.tDampP) _ (by simpa using htauP) p.lenP hP _ θ t hba hθ
  refine ((((h1.fun_add h.energy).fun_add h2).fun_add h3).fun_add h4).congr_deriv ?_
  have e1 := ion_power s hmass hcon (v t).ion F h.conIon (-(v t).th 0 - M3.trace (v t).lat / s.nDOF) (v t).lat true
  simp only [if_true] at e1
  erw [e1]
  have hV : |det (R t)| ≠ 0 := abs_ne_zero.mpr h.cell
  have hN' : (s.nDOF : ℝ) ≠ 0 := by exact_mod_cast hN
  have hNF : (s.nDOF + s.nFree : ℝ) ≠ 0 := by positivity
  rw [hconL, h.conLat, trace_contract, kinetic_eq]
  have e2 : contract (v t).lat (fun i j => 1 / p.tDampP * (1 / p.tDampP) / ((s.nDOF + s.nFree) * p.T0)
        * (|det (R t)| * (p.target i j - totalStress s.mass |det (R t)| stress (v t).ion i j)
          + 2 * atomKE s.mass (v t).ion / s.nDOF * (if i = j then 1 else 0)) - (v t).ba 0 * (v t).lat i j)
      = 1 / p.tDampP * (1 / p.tDampP) / ((s.nDOF + s.nFree) * p.T0)
          * (|det (R t)| * (contract p.target (v t).lat - contract stress (v t).lat)
            + contract (fun i j => ∑ a, s.mass a * ((v t).ion a i * (v t).ion a j)) (v t).lat
            + 2 * atomKE s.mass (v t).ion / s.nDOF * M3.trace (v t).lat) - (v t).ba 0 * contract (v t).lat (v t).lat := by
    have e3 : ∀ i j, totalStress s.mass |det (R t)| stress (v t).ion i j
        = stress i j - (∑ a, s.mass a * ((v t).ion a i * (v t).ion a j)) / |det (R t)| := by
      intro i j
      unfold totalStress
      rw [Finset.sum_div]
      congr 1
      exact Finset.sum_congr rfl fun a _ => by ring
    simp only [e3]
    obtain ⟨X, hX⟩ : ∃ X : Mat ℝ, ∀ i j, ∑ a, s.mass a * ((v t).ion a i * (v t).ion a j) = X i j := ⟨_, fun _ _ => rfl⟩
    simp only [hX, contract, M3.trace, Fin.sum_univ_three]
    simp only [Fin.isValue, Fin.reduceEq, if_true, if_false]
    generalize atomKE s.mass (v t).ion = X6 at *
    field_simp
    ring
  rw [e2]
  generalize contract (fun i j => ∑ a, s.mass a * ((v t).ion a i * (v t).ion a j)) (v t).lat = X1 at *
  generalize contract (v t).lat (v t).lat = X2 at *
  generalize contract stress (v t).lat = X3 at *
  generalize contract p.target (v t).lat = X4 at *
  generalize M3.trace (v t).lat = X5 at *
  generalize atomKE s.mass (v t).ion = X6 at *
  generalize power F (v t).ion = X7 at *
  field_simp
  ring

/-- **C89 (pressure).** At a target pressure `P0` the enthalpy of the extended system is conserved. -/
theorem C89_pressure_energy {n : Nat} (p : Params) (s : Sys n) (P0 : ℝ) (htarget : p.target = fun i j => if i = j then -P0 else 0)
    (hmeth : p.method = .noseHoover) (hL : p.statL = true)
    (hT : p.lenT ≠ 0) (hP : p.lenP ≠ 0) (hT0 : p.T0 ≠ 0) (htau : p.tDampT ≠ 0) (htauP : p.tDampP ≠ 0) (hN : s.nDOF ≠ 0)
    (hF : s.nFree ≠ 0) (hmass : ∀ a, s.mass a ≠ 0) (hcon : Workless s.mass s.con) (hconL : WorklessL s.conL)
    (R : ℝ → Mat ℝ) (v : ℝ → Vel n) (PE : ℝ → ℝ) (F : Motion ℝ n) (stress : Mat ℝ) (t : ℝ) (h : Moves p s R v PE F stress t)
    (η θ : ℝ → Nat → ℝ) (hη : ∀ j, HasDerivAt (fun τ => η τ j) ((v t).th j) t) (hθ : ∀ j, HasDerivAt (fun τ => θ τ j) ((v t).ba j) t) :
    HasDerivAt (fun τ => atomKE s.mass (v τ).ion + PE τ + strainKE ((s.nDOF + s.nFree) * p.T0 * p.tDampP ^ 2) (v τ).lat
      + (chainKE s.nDOF p.T0 (1 / p.tDampT) p.lenT (v τ).th + chainHeat s.nDOF p.T0 p.lenT (η τ))
      + (chainKE (s.nFree * (s.nFree + 1) / 2) p.T0 (1 / p.tDampP) p.lenP (v τ).ba
        + chainHeat (s.nFree * (s.nFree + 1) / 2) p.T0 p.lenP (θ τ)) + P0 * |det (R τ)|) 0 t := by
  refine ((C89_barostat_energy p s hmeth hL hT hP hT0 htau htauP hN hF hmass hcon hconL R v PE F stress t h η θ hη hθ).fun_add
    ((volume_deriv R _ t h.lattice h.cell).const_mul P0)).congr_deriv ?_
  rw [htarget]
  simp only [contract, M3.trace, Fin.sum_univ_three, Fin.isValue, Fin.reduceEq, if_true, if_false]
  ring

/-- **C89 (defined).** The thermostat is well defined exactly if the Nosé-Hoover chains are not empty. -/
theorem C89_defined {n : Nat} (p : Params) (s : Sys n) (V : ℝ) (stress : Mat ℝ) (v : Vel n) :
    (∃ r, thermostat p s V stress v = .ok r) ↔ (p.method = .noseHoover → p.lenT ≠ 0 ∧ (p.statL = true → p.lenP ≠ 0)) := by
  unfold thermostat
  rcases hm : p.method with _ | _ | _
  · simp
  · simp
  · by_cases h1 : p.lenT = 0
    · simp [h1]
    · cases h2 : p.statL
      · simp [h1]
      · by_cases h3 : p.lenP = 0 <;> simp [h1, h3]

/-- **C89 is false for the code** for an empty chain: neither `chainLengthT` nor `chainLengthP` of the command is checked
(commands/ionic_dynamics.cpp), and `thermostat` reads the first element whatever the length (IonicDynamics.cpp:204, 224). -/
theorem C89_chain_violation {n : Nat} (s : Sys n) (V : ℝ) (stress : Mat ℝ) (v : Vel n) (T0 a b : ℝ) (target : Mat ℝ) :
    thermostat ⟨.noseHoover, false, T0, a, b, 0, 3, target⟩ s V stress v = .error .ub ∧
    thermostat ⟨.noseHoover, true, T0, a, b, 3, 0, target⟩ s V stress v = .error .ub := by
  constructor <;> simp [thermostat]

/-- **C89 (Berendsen).** The thermostat changes the kinetic energy at a rate that vanishes at the target and otherwise drives it
towards the target. -/
theorem C89_berendsen {n : Nat} (p : Params) (s : Sys n) (hmeth : p.method = .berendsen) (hL : p.statL = false)
    (hcon : Workless s.mass s.con) (V : ℝ) (stress : Mat ℝ) (v r : Vel n) (hv : s.con v.ion = v.ion)
    (hr : thermostat p s V stress v = .ok r) :
    massDot s.mass v.ion r.ion
      = -(atomKE s.mass v.ion / p.tDampT) * (atomKE s.mass v.ion / (s.nDOF * p.T0 / 2) - 1) := by
  simp only [thermostat, hmeth, hL] at hr
  injection hr with hr
  subst hr
  simp only [Bool.false_eq_true, if_false, sub_zero]
  rw [hcon, hv, massDot_smul, atomKE_massDot, kinetic_eq]
  ring

/-- **C89 (Berendsen, direction).** Above the target temperature the kinetic energy falls, below it rises. -/
theorem C89_berendsen_direction {n : Nat} (p : Params) (s : Sys n) (hmeth : p.method = .berendsen) (hL : p.statL = false)
    (hcon : Workless s.mass s.con) (V : ℝ) (stress : Mat ℝ) (v r : Vel n) (hv : s.con v.ion = v.ion)
    (hr : thermostat p s V stress v = .ok r) (hT0 : 0 < p.T0) (htau : 0 < p.tDampT) (hN : s.nDOF ≠ 0) (hKE : 0 < atomKE s.mass v.ion) :
    (p.T0 < temperature s v.ion → massDot s.mass v.ion r.ion < 0) ∧
    (temperature s v.ion < p.T0 → 0 < massDot s.mass v.ion r.ion) ∧
    (temperature s v.ion = p.T0 → massDot s.mass v.ion r.ion = 0) := by
  rw [C89_berendsen p s hmeth hL hcon V stress v r hv hr]
  have hN' : (0 : ℝ) < s.nDOF := by exact_mod_cast Nat.pos_of_ne_zero hN
  have e : atomKE s.mass v.ion / (s.nDOF * p.T0 / 2) - 1 = (temperature s v.ion - p.T0) / p.T0 := by
    unfold temperature; rw [kinetic_eq]; field_simp
  rw [e]
  have hpos : 0 < atomKE s.mass v.ion / p.tDampT := div_pos hKE htau
  refine ⟨fun h => ?_, fun h => ?_, fun h => ?_⟩
  · have : 0 < (temperature s v.ion - p.T0) / p.T0 := div_pos (by linarith) hT0
    nlinarith
  · have : (temperature s v.ion - p.T0) / p.T0 < 0 := div_neg_of_neg_of_pos (by linarith) hT0
    nlinarith
  · rw [h]; simp

/-- **C89 (initial velocities).** Random initial velocities respect the constraints and have exactly the requested temperature. -/
theorem C89_initial {n : Nat} (s : Sys n) (P : Motion ℝ n →ₗ[ℝ] Motion ℝ n) (hP : s.con = P) (hPP : ∀ x, P (P x) = P x)
    (hmass : ∀ a, 0 ≤ s.mass a) (hN : s.nDOF ≠ 0) (amu T0 : ℝ) (hT0 : 0 ≤ T0) (draw v : Motion ℝ n)
    (h : initializeVelocities s amu T0 draw = some v) : temperature s v = T0 ∧ s.con v = v := by
  unfold initializeVelocities at h
  simp only at h
  split at h
  · cases h
  · rename_i hne
    injection h with h
    rw [hP] at h hne
    generalize hw : P (fun a => (1 / Real.sqrt (s.mass a / amu)) • draw a) = w at h hne
    have hpos : 0 < kinetic s.mass w := by
      refine lt_of_le_of_ne ?_ (Ne.symm hne)
      rw [kinetic_eq]
      exact Finset.sum_nonneg fun a _ => Finset.sum_nonneg fun i _ => by have := hmass a; positivity
    have hsq : Real.sqrt ((1/2 * s.nDOF * T0) / kinetic s.mass w) ^ 2 = (1/2 * s.nDOF * T0) / kinetic s.mass w :=
      Real.sq_sqrt (by positivity)
    generalize Real.sqrt ((1/2 * s.nDOF * T0) / kinetic s.mass w) = c at *
    have hN' : (s.nDOF : ℝ) ≠ 0 := by exact_mod_cast hN
    have hv : v = c • w := h.symm
    constructor
    · have e : kinetic s.mass v = c ^ 2 * kinetic s.mass w := by
        rw [hv]
        unfold kinetic
        rw [Finset.mul_sum]
        refine Finset.sum_congr rfl fun a _ => ?_
        simp only [dot, Pi.smul_apply, smul_eq_mul]; ring
      unfold temperature
      rw [e, hsq]
      field_simp
    · rw [hP, hv, map_smul, ← hw, hPP]

/-! ### The actual constraints -/

/-- No atom takes part in a collective constraint. -/
def NoGroups {n : Nat} {L : Type} (cs : Fin n → Constraint ℝ L) : Prop := ∀ a planes, (cs a).type ≠ .hyperPlane planes

theorem labels_nil {n : Nat} {L : Type} [LinearOrder L] (cs : Fin n → Constraint ℝ L) (h : NoGroups cs) : groupLabels cs = [] := by
  rw [List.eq_nil_iff_forall_not_mem]
  intro l hl
  rw [mem_groupLabels] at hl
  obtain ⟨a, planes, p, h1, -⟩ := hl
  exact h a planes h1

theorem constrain_nogroups {n : Nat} {L : Type} [LinearOrder L] (eps : ℝ) (ext : Bool) (cs : Fin n → Constraint ℝ L) (h : NoGroups cs)
    (x : Motion ℝ n) :
    constrain eps ext cs id x = if anyConstrained cs ext then perAtom cs x else subtractMean (perAtom cs x) := by
  simp only [constrain, id, constrainCore, labels_nil cs h, List.foldl_nil]

theorem applyOne_sym {L : Type} (c : Constraint ℝ L) (u w : V3 ℝ) : dot u (applyOne c w) = dot (applyOne c u) w := by
  unfold applyOne
  split
  · simp [dot]
  · split
    · simp only [dot]; ring
    · simp only [dot]; ring
    · rfl

theorem massDot_dot {n : Nat} (mass : Fin n → ℝ) (u w : Motion ℝ n) : massDot mass u w = ∑ a, mass a * dot (u a) (w a) := by
  unfold massDot
  refine Finset.sum_congr rfl fun a _ => ?_
  simp only [dot, Fin.sum_univ_three]; ring

theorem perAtom_sym {n : Nat} {L : Type} (mass : Fin n → ℝ) (cs : Fin n → Constraint ℝ L) (u w : Motion ℝ n) :
    massDot mass u (perAtom cs w) = massDot mass (perAtom cs u) w := by
  rw [massDot_dot, massDot_dot]
  exact Finset.sum_congr rfl fun a _ => by rw [perAtom, perAtom, applyOne_sym]

/-- When nothing is constrained, only the mean is subtracted. -/
theorem perAtom_free {n : Nat} {L : Type} [LinearOrder L] (cs : Fin n → Constraint ℝ L) (ext : Bool) (h : anyConstrained cs ext = false) (x : Motion ℝ n) :
    perAtom cs x = x := by
  have hu := (anyConstrained_false cs ext h).2
  funext a
  simp only [perAtom, applyOne, (hu a).1, (hu a).2, if_false]

/-- **C89 (workless constraints).** Fixed atoms and atoms confined to lines and planes do no work. When nothing is constrained, so
that the mean velocity is subtracted, the same holds if all masses are equal. -/
theorem C89_workless {n : Nat} {L : Type} [LinearOrder L] (eps : ℝ) (ext : Bool) (cs : Fin n → Constraint ℝ L) (hg : NoGroups cs)
    (mass : Fin n → ℝ) (hm : anyConstrained cs ext = true ∨ ∃ m, ∀ a, mass a = m) : Workless mass (constrain eps ext cs id) := by
  intro u w
  rw [constrain_nogroups eps ext cs hg, constrain_nogroups eps ext cs hg]
  by_cases h : anyConstrained cs ext = true
  · rw [if_pos h, if_pos h, perAtom_sym]
  · obtain ⟨m, hm⟩ := hm.resolve_left h
    rw [if_neg h, if_neg h]
    have h' : anyConstrained cs ext = false := by simpa using h
    rw [perAtom_free cs ext h', perAtom_free cs ext h']
    simp only [massDot, hm, subtractMean, Pi.sub_apply, Pi.smul_apply, smul_eq_mul, Finset.sum_apply]
    rw [Finset.sum_comm, Finset.sum_comm (s := Finset.univ (α := Fin n))]
    refine Finset.sum_congr rfl fun i _ => ?_
    simp only [mul_sub, sub_mul, Finset.sum_sub_distrib, ← Finset.mul_sum, ← Finset.sum_mul]
    ring

/-- **C89 (energy drift).** When nothing is constrained, kinetic plus potential energy changes without thermostat at a rate given
by the total momentum and the mean of force divided by mass. -/
theorem C89_energy_drift {n : Nat} {L : Type} [LinearOrder L] (p : Params) (s : Sys n) (hmeth : p.method = .none) (hmass : ∀ a, s.mass a ≠ 0)
    (eps : ℝ) (cs : Fin n → Constraint ℝ L) (hu : Unconstrained cs) (hs : s.con = constrain eps false cs id)
    (R : ℝ → Mat ℝ) (v : ℝ → Vel n) (PE : ℝ → ℝ) (F : Motion ℝ n) (stress : Mat ℝ) (t : ℝ)
    (hlat : (v t).lat = 0) (h : Moves p s R v PE F stress t) :
    HasDerivAt (fun τ => atomKE s.mass (v τ).ion + PE τ)
      (-∑ i, (∑ a, s.mass a * (v t).ion a i) * ((∑ a, F a i / s.mass a) / n)) t := by
  obtain ⟨r, hr, hion, -⟩ := h.rates
  simp only [thermostat, hmeth] at hr
  cases hr
  refine ((atomKE_deriv s.mass _ (s.con (fun a => (1 / s.mass a) • F a)) t fun a i => (hion a i).congr_deriv (by simp)).fun_add
    h.energy).congr_deriv ?_
  have hg : NoGroups cs := fun a planes e => by rw [(hu a).2] at e; cases e
  have hany : anyConstrained cs false = false := by
    simp only [anyConstrained, Bool.false_or, List.any_eq_false]
    intro a _
    simp [getDimension, (hu a).1, (hu a).2]
  rw [hs, constrain_nogroups eps false cs hg, hany, perAtom_free cs false hany, hlat]
  rw [if_neg (by simp)]
  have e : massDot s.mass (v t).ion (subtractMean fun a => (1 / s.mass a) • F a)
      = massDot s.mass (v t).ion (fun a => (1 / s.mass a) • F a)
        - massDot s.mass (v t).ion (fun _ => (1 / (n : ℝ)) • ∑ b, (1 / s.mass b) • F b) := massDot_sub _ _ _ _
  rw [e, massDot_force s.mass hmass]
  have e2 : massDot s.mass (v t).ion (fun _ => (1 / (n : ℝ)) • ∑ b, (1 / s.mass b) • F b)
      = ∑ i, (∑ a, s.mass a * (v t).ion a i) * ((∑ a, F a i / s.mass a) / n) := by
    unfold massDot
    rw [Finset.sum_comm]
    refine Finset.sum_congr rfl fun i _ => ?_
    rw [Finset.sum_mul]
    refine Finset.sum_congr rfl fun a _ => ?_
    simp only [Pi.smul_apply, smul_eq_mul, Finset.sum_apply]
    rw [show (∑ x, 1 / s.mass x * F x i) = ∑ x, F x i / s.mass x from Finset.sum_congr rfl fun x _ => by ring]
    ring
  rw [e2]
  simp only [contract, Pi.zero_apply, mul_zero, Finset.sum_const_zero]
  ring

/-! ### Degrees of freedom -/

/-- Sum over all atoms. -/
def sumAtoms (n : Nat) : Motion ℝ n →ₗ[ℝ] V3 ℝ where
  toFun x := ∑ a, x a
  map_add' x y := by simp [Finset.sum_add_distrib]
  map_smul' c x := by simp [Finset.smul_sum]

/-- Motions restricted atom by atom. -/
def piEquiv {n : Nat} (S : Submodule ℝ (Motion ℝ n)) (W : Fin n → Submodule ℝ (V3 ℝ)) (h : ∀ x, x ∈ S ↔ ∀ a, x a ∈ W a) :
    S ≃ₗ[ℝ] (∀ a, W a) where
  toFun x := fun a => ⟨x.1 a, (h x.1).1 x.2 a⟩
  invFun y := ⟨fun a => (y a).1, (h _).2 fun a => (y a).2⟩
  left_inv _ := rfl
  right_inv _ := rfl
  map_add' _ _ := rfl
  map_smul' _ _ := rfl

/-- **C89 (degrees of freedom).** For fixed atoms and atoms confined to lines and planes the number of degrees of freedom used to
convert kinetic energy to temperature is the dimension of the space of allowed velocities. -/
theorem C89_degrees {n : Nat} {L : Type} [LinearOrder L] (eps : ℝ) (ext : Bool) (cs : Fin n → Constraint ℝ L)
    (hcs : ∀ a, Accepted (cs a)) (hg : NoGroups cs) (hext : ext = true → ¬ Unconstrained cs) (hmove : ∃ a, (cs a).moveScale ≠ 0)
    (N : Nat) (h : countDOF cs = .ok N) : Module.finrank ℝ (LinearMap.range (constrainL eps ext cs)) = N := by
  have hle : ∀ a, getDimension (cs a) ≤ 3 := fun a => by
    unfold getDimension; split
    · omega
    · split <;> omega
  have hd : ∑ a, getDimension (cs a) ≠ 0 := by
    obtain ⟨a, ha⟩ := hmove
    have : 0 < getDimension (cs a) := by
      unfold getDimension; rw [if_neg ha]; split <;> omega
    have := Finset.single_le_sum (f := fun a => getDimension (cs a)) (fun _ _ => Nat.zero_le _) (Finset.mem_univ a)
    omega
  simp only [countDOF, if_neg hd] at h
  by_cases hany : anyConstrained cs ext = true
  · -- some atom is constrained
    have hlt : ∑ a, getDimension (cs a) ≠ 3 * n := by
      intro he
      have hall : ∀ a, getDimension (cs a) = 3 := by
        have : ∑ a : Fin n, getDimension (cs a) = ∑ _a : Fin n, 3 := by simp [he]; ring
        intro a
        exact (Finset.sum_eq_sum_iff_of_le (fun a _ => hle a)).1 this a (Finset.mem_univ a)
      have hu : Unconstrained cs := by
        intro a
        have ha := hall a
        unfold getDimension at ha
        by_cases h0 : (cs a).moveScale = 0
        · rw [if_pos h0] at ha; omega
        · rw [if_neg h0] at ha
          refine ⟨h0, ?_⟩
          cases ht : (cs a).type with
          | none => rfl
          | linear d => rw [ht] at ha; simp at ha
          | planar d => rw [ht] at ha; simp at ha
          | hyperPlane q => exact absurd ht (hg a q)
      cases ext with
      | true => exact hext rfl hu
      | false =>
        simp only [anyConstrained, Bool.false_or, List.any_eq_true] at hany
        obtain ⟨a, -, ha⟩ := hany
        simp [hall a, (hu a).2] at ha
    rw [if_neg hlt, if_neg hd] at h
    injection h with h
    choose W hW hWd using fun a => C61_dimension (cs a) (hcs a)
    have hmem : ∀ x, x ∈ LinearMap.range (constrainL eps ext cs) ↔ ∀ a, x a ∈ W a := by
      intro x
      rw [LinearMap.mem_range]
      constructor
      · rintro ⟨y, rfl⟩ a
        rw [hW]
        show AtomOK (cs a) (constrain eps ext cs id y a)
        rw [constrain_nogroups eps ext cs hg, if_pos hany]
        exact applyOne_ok _ (hcs a) _
      · intro hx
        refine ⟨x, ?_⟩
        show constrain eps ext cs id x = x
        rw [constrain_nogroups eps ext cs hg, if_pos hany]
        funext a
        exact applyOne_keep _ (hcs a) _ ((hW a _).1 (hx a))
    rw [(piEquiv _ W hmem).finrank_eq, Module.finrank_pi_fintype]
    simp only [hWd]
    exact h
  · -- only the mean is subtracted
    have hany' : anyConstrained cs ext = false := by simpa using hany
    obtain ⟨-, hu⟩ := anyConstrained_false cs ext hany'
    have h3 : ∑ a, getDimension (cs a) = 3 * n := by
      have : ∀ a, getDimension (cs a) = 3 := fun a => by simp [getDimension, (hu a).1, (hu a).2]
      simp [this]; ring
    rw [h3] at h hd
    simp only [if_true] at h
    have hn : 0 < n := by omega
    split at h
    · cases h
    · injection h with h
      have hr : LinearMap.range (constrainL eps ext cs) = LinearMap.ker (sumAtoms n) := by
        ext x
        rw [LinearMap.mem_range, LinearMap.mem_ker]
        constructor
        · rintro ⟨y, rfl⟩
          show ∑ a, constrain eps ext cs id y a = 0
          rw [constrain_nogroups eps ext cs hg, if_neg hany]
          exact Dyn.mean_zero hn (perAtom cs y)
        · intro hx
          have hx' : ∑ a, x a = 0 := hx
          refine ⟨x, ?_⟩
          show constrain eps ext cs id x = x
          rw [constrain_nogroups eps ext cs hg, if_neg hany, perAtom_free cs ext hany']
          funext a
          simp [subtractMean, hx']
      have r := LinearMap.finrank_range_add_finrank_ker (sumAtoms n)
      have surj : LinearMap.range (sumAtoms n) = ⊤ := by
        rw [LinearMap.range_eq_top]
        intro y
        refine ⟨Pi.single ⟨0, hn⟩ y, ?_⟩
        show ∑ a, (Pi.single ⟨0, hn⟩ y : Motion ℝ n) a = y
        simp
      rw [surj, finrank_top, Module.finrank_fin_fun] at r
      rw [hr]
      have : Module.finrank ℝ (Motion ℝ n) = 3 * n := by
        rw [Module.finrank_pi_fintype]; simp; ring
      omega

/-- **C89 (canonical distribution).** Without barostat, the flow of the Nosé-Hoover chain keeps the canonical distribution at the
target temperature: the rate of change of the energy `E` of atoms and chain along the flow is the temperature times the
divergence of the flow, so that `exp(-E/T)` is stationary. This requires, unless the first chain velocity vanishes, that the
number of degrees of freedom is the dimension of the space of allowed velocities. `D` is the derivative of the flow with respect
to the velocities, on that space, `d` are the diagonal derivatives with respect to the chain. -/
theorem C89_canonical {n : Nat} (p : Params) (s : Sys n) (hmeth : p.method = .noseHoover) (hL : p.statL = false)
    (hT : p.lenT ≠ 0) (hT0 : p.T0 ≠ 0) (htau : p.tDampT ≠ 0) (hN : s.nDOF ≠ 0) (hcon : Workless s.mass s.con)
    (P : Motion ℝ n →ₗ[ℝ] Motion ℝ n) (hP : s.con = P) (hPP : ∀ x, P (P x) = P x) (V : ℝ) (stress : Mat ℝ)
    (v : Vel n) (hv : s.con v.ion = v.ion) (R : Vel n → Vel n) (hR : ∀ v, thermostat p s V stress v = .ok (R v))
    (D : LinearMap.range P →ₗ[ℝ] LinearMap.range P) (hD : ∀ w, (R { v with ion := w.1 }).ion = (D w).1)
    (d : Nat → ℝ) (hd : ∀ j < p.lenT, HasDerivAt (fun y => (R { v with th := Function.update v.th j y }).th j) (d j) (v.th j))
    (E' : ℝ) (hE : HasDerivAt (fun τ : ℝ => atomKE s.mass (v.ion + τ • (R v).ion)
      + chainKE s.nDOF p.T0 (1 / p.tDampT) p.lenT (v.th + τ • (R v).th)) E' 0) :
    E' = p.T0 * (LinearMap.trace ℝ _ D + ∑ j ∈ Finset.range p.lenT, d j)
      ↔ s.nDOF = Module.finrank ℝ (LinearMap.range P) ∨ v.th 0 = 0 := by
  have hRv : ∀ u : Vel n, (R u).ion = P ((-u.th 0) • u.ion) ∧ (R u).th = chainRate p.lenT
      (1 / p.tDampT * (1 / p.tDampT) * (atomKE s.mass u.ion / (1/2 * s.nDOF * p.T0) - 1)) s.nDOF (1 / p.tDampT * (1 / p.tDampT)) u.th := by
    intro u
    have := hR u
    simp only [thermostat, hmeth, hT, hL, if_false] at this
    injection this with this
    rw [← this, ← kinetic_eq, hP]
    refine ⟨?_, rfl⟩
    simp only [Bool.false_eq_true, if_false, sub_zero]
    rfl
  -- the trace
  have hDe : D = (-v.th 0) • LinearMap.id := by
    apply LinearMap.ext
    intro w
    apply Subtype.ext
    rw [← hD w, (hRv _).1]
    simp only [map_smul]
    obtain ⟨y, hy⟩ := w.2
    have : P w.1 = w.1 := by rw [← hy, hPP]
    rw [this]; rfl
  have htr : LinearMap.trace ℝ _ D = -v.th 0 * Module.finrank ℝ (LinearMap.range P) := by
    rw [hDe, map_smul, LinearMap.trace_id, smul_eq_mul]
  -- the chain
  have hde : ∀ j < p.lenT, d j = -(if j + 1 < p.lenT then v.th (j+1) else 0) := by
    intro j hj
    refine (hd j hj).unique ?_
    simp only [(hRv _).2]
    unfold chainRate
    simp only [if_pos hj]
    by_cases h1 : j + 1 < p.lenT
    · simp only [if_pos h1, Function.update_self, Function.update_of_ne (Nat.succ_ne_self j)]
      have hc : (fun y : ℝ => (if j = 0 then 1 / p.tDampT * (1 / p.tDampT) * (atomKE s.mass v.ion / (1/2 * s.nDOF * p.T0) - 1)
          else (if j = 1 then (s.nDOF : ℝ) else 1) * Function.update v.th j y (j-1) ^ 2 - 1 / p.tDampT * (1 / p.tDampT)) - y * v.th (j+1))
          = fun y => (if j = 0 then 1 / p.tDampT * (1 / p.tDampT) * (atomKE s.mass v.ion / (1/2 * s.nDOF * p.T0) - 1)
          else (if j = 1 then (s.nDOF : ℝ) else 1) * v.th (j-1) ^ 2 - 1 / p.tDampT * (1 / p.tDampT)) - y * v.th (j+1) := by
        funext y
        by_cases h0 : j = 0
        · simp [h0]
        · rw [Function.update_of_ne (by omega)]
      rw [hc]
      exact (((hasDerivAt_id _).mul_const _).const_sub _).congr_deriv (by simp)
    · simp only [if_neg h1, sub_zero]
      have hc : (fun y : ℝ => (if j = 0 then 1 / p.tDampT * (1 / p.tDampT) * (atomKE s.mass v.ion / (1/2 * s.nDOF * p.T0) - 1)
          else (if j = 1 then (s.nDOF : ℝ) else 1) * Function.update v.th j y (j-1) ^ 2 - 1 / p.tDampT * (1 / p.tDampT)))
          = fun y => (if j = 0 then 1 / p.tDampT * (1 / p.tDampT) * (atomKE s.mass v.ion / (1/2 * s.nDOF * p.T0) - 1)
          else (if j = 1 then (s.nDOF : ℝ) else 1) * v.th (j-1) ^ 2 - 1 / p.tDampT * (1 / p.tDampT)) := by
        funext y
        by_cases h0 : j = 0
        · simp [h0]
        · rw [Function.update_of_ne (by omega)]
      rw [hc]
      exact (hasDerivAt_const _ _).congr_deriv (by simp)
  have hsum : ∑ j ∈ Finset.range p.lenT, d j = -∑ j ∈ Finset.range (p.lenT - 1), v.th (j+1) := by
    rw [Finset.sum_congr rfl fun j hj => hde j (Finset.mem_range.1 hj), Finset.sum_neg_distrib]
    congr 1
    obtain ⟨m, hm⟩ := Nat.exists_eq_succ_of_ne_zero hT
    rw [hm, Finset.sum_range_succ]
    simp only [Nat.succ_eq_add_one, lt_self_iff_false, if_false, add_zero, Nat.add_one_sub_one]
    exact Finset.sum_congr rfl fun j hj => if_pos (by have := Finset.mem_range.1 hj; omega)
  -- the energy
  have h1 := atomKE_deriv s.mass (fun τ : ℝ => v.ion + τ • (R v).ion) (R v).ion 0 fun a i =>
    (((hasDerivAt_id (0 : ℝ)).mul_const ((R v).ion a i)).const_add (v.ion a i)).congr_deriv (by simp)
  have h2 : ∀ j, HasDerivAt (fun τ : ℝ => (v.th + τ • (R v).th) j) ((R v).th j) 0 := fun j =>
    (((hasDerivAt_id (0 : ℝ)).mul_const ((R v).th j)).const_add (v.th j)).congr_deriv (by simp)
  have h3 := chain_deriv s.nDOF p.T0 (1 / p.tDampT)
    (1 / p.tDampT * (1 / p.tDampT) * (atomKE s.mass v.ion / (1/2 * s.nDOF * p.T0) - 1)) (by simpa using htau) p.lenT hT
    (fun τ : ℝ => v.th + τ • (R v).th) (fun τ j => τ * v.th j) 0
    (fun j => (h2 j).congr_deriv (by rw [(hRv v).2]; simp))
    (fun j => ((hasDerivAt_id (0 : ℝ)).mul_const (v.th j)).congr_deriv (by simp))
  have h4 : HasDerivAt (fun τ : ℝ => chainHeat s.nDOF p.T0 p.lenT (fun j => τ * v.th j)) (chainHeat s.nDOF p.T0 p.lenT v.th) 0 := by
    have : (fun τ : ℝ => chainHeat s.nDOF p.T0 p.lenT (fun j => τ * v.th j)) = fun τ => τ * chainHeat s.nDOF p.T0 p.lenT v.th := by
      funext τ; simp only [chainHeat, ← Finset.mul_sum]; ring
    rw [this]
    exact ((hasDerivAt_id (0 : ℝ)).mul_const _).congr_deriv (by simp)
  have h5 := hE.unique ((h1.fun_add (h3.fun_sub h4)).congr_of_eventuallyEq (Filter.Eventually.of_forall fun τ => by simp))
  have h6 : massDot s.mass v.ion (R v).ion = -(2 * v.th 0 * atomKE s.mass v.ion) := by
    rw [(hRv v).1, ← hP, hcon, hv]
    have := massDot_smul s.mass (-v.th 0) v.ion v.ion
    rw [atomKE_massDot] at this
    rw [show (-v.th 0) • v.ion = fun a => (-v.th 0) • v.ion a from rfl, this]; ring
  simp only [zero_smul, add_zero] at h5
  rw [h5, h6, htr, hsum]
  have hN' : (s.nDOF : ℝ) ≠ 0 := by exact_mod_cast hN
  have e : -(2 * v.th 0 * atomKE s.mass v.ion) + (↑s.nDOF * p.T0 / (1 / p.tDampT) ^ 2 * v.th 0
      * (1 / p.tDampT * (1 / p.tDampT) * (atomKE s.mass v.ion / (1 / 2 * ↑s.nDOF * p.T0) - 1)) + p.T0 * ↑s.nDOF * v.th 0
      - chainHeat s.nDOF p.T0 p.lenT v.th) = - chainHeat s.nDOF p.T0 p.lenT v.th := by
    field_simp; ring
  rw [e]
  unfold chainHeat
  constructor
  · intro hh
    have : p.T0 * v.th 0 * ((s.nDOF : ℝ) - Module.finrank ℝ (LinearMap.range P)) = 0 := by linear_combination -hh
    rcases mul_eq_zero.1 this with h | h
    · exact Or.inr ((mul_eq_zero.1 h).resolve_left hT0)
    · left; exact_mod_cast sub_eq_zero.1 h
  · rintro (h | h)
    · rw [h]; ring
    · rw [h]; ring

/-- **C89 (canonical distribution, constraints of the code).** With fixed atoms and atoms confined to lines and planes, for any
masses, or with nothing constrained and equal masses, the Nosé-Hoover chain keeps the canonical distribution. -/
theorem C89_stationary {n : Nat} {L : Type} [LinearOrder L] (p : Params) (s : Sys n) (hmeth : p.method = .noseHoover) (hL : p.statL = false)
    (hT : p.lenT ≠ 0) (hT0 : p.T0 ≠ 0) (htau : p.tDampT ≠ 0)
    (eps : ℝ) (he : 0 ≤ eps) (ext : Bool) (cs : Fin n → Constraint ℝ L) (hcs : ∀ a, Accepted (cs a)) (hg : NoGroups cs)
    (hext : ext = true → ¬ Unconstrained cs) (hmove : ∃ a, (cs a).moveScale ≠ 0)
    (hm : anyConstrained cs ext = true ∨ ∃ m, ∀ a, s.mass a = m)
    (hs : s.con = constrain eps ext cs id) (hc : countDOF cs = .ok s.nDOF) (V : ℝ) (stress : Mat ℝ)
    (v : Vel n) (hv : s.con v.ion = v.ion) (R : Vel n → Vel n) (hR : ∀ v, thermostat p s V stress v = .ok (R v))
    (D : LinearMap.range (constrainL eps ext cs) →ₗ[ℝ] LinearMap.range (constrainL eps ext cs))
    (hD : ∀ w, (R { v with ion := w.1 }).ion = (D w).1)
    (d : Nat → ℝ) (hd : ∀ j < p.lenT, HasDerivAt (fun y => (R { v with th := Function.update v.th j y }).th j) (d j) (v.th j))
    (E' : ℝ) (hE : HasDerivAt (fun τ : ℝ => atomKE s.mass (v.ion + τ • (R v).ion)
      + chainKE s.nDOF p.T0 (1 / p.tDampT) p.lenT (v.th + τ • (R v).th)) E' 0) :
    E' = p.T0 * (LinearMap.trace ℝ _ D + ∑ j ∈ Finset.range p.lenT, d j) := by
  have hN : s.nDOF ≠ 0 := by
    intro h0
    rw [h0] at hc
    simp only [countDOF] at hc
    generalize (if (if ∑ a, getDimension (cs a) = 0 then 1 else ∑ a, getDimension (cs a)) = 3 * n
      then (if ∑ a, getDimension (cs a) = 0 then 1 else ∑ a, getDimension (cs a)) - 3
      else (if ∑ a, getDimension (cs a) = 0 then 1 else ∑ a, getDimension (cs a))) = k at hc
    by_cases h1 : k = 0
    · rw [if_pos h1] at hc; cases hc
    · rw [if_neg h1] at hc; injection hc with hc; exact h1 hc
  have horth : OrthogonalGroups cs := by
    intro l l' _
    refine Finset.sum_eq_zero fun a _ => ?_
    have : normalOf (cs a) l = 0 := by
      unfold normalOf
      cases ht : (cs a).type with
      | hyperPlane q => exact absurd ht (hg a q)
      | _ => rfl
    rw [this]; simp [inner3]
  have hbig : ∀ l, UsedLabel cs l → ∑ a, inner3 (normalOf (cs a) l) (normalOf (cs a) l) > eps := by
    rintro l ⟨a, planes, q, h1, -⟩
    exact absurd h1 (hg a planes)
  have hw : Workless s.mass s.con := hs ▸ C89_workless eps ext cs hg s.mass hm
  exact (C89_canonical p s hmeth hL hT hT0 htau hN hw (constrainL eps ext cs) hs
    (C61_idempotent eps he ext cs hcs horth hbig hext) V stress v hv R hR D hD d hd E' hE).2
    (Or.inl (C89_degrees eps ext cs hcs hg hext hmove s.nDOF hc).symm)

/-! ### The lattice -/

/-- **C89 (lattice constraint).** The constraint on the strain rate does no work and keeps what it has produced, for the isotropic
and the anisotropic barostat and any projection `Pfree` on the free directions. -/
theorem C89_lattice_workless (statP : Bool) (Pfree : Mat ℝ) (hsym : ∀ i j, Pfree i j = Pfree j i)
    (hproj : ∀ i j, mulMM Pfree Pfree i j = Pfree i j) : WorklessL (constrainLat statP Pfree) := by
  have ht : ∀ m : Mat ℝ, M3.trace (mulMM (mulMM Pfree (fun i j => 1/2 * (m i j + transpose m i j))) Pfree) = contract m Pfree := by
    intro m
    have h : M3.trace (mulMM (mulMM Pfree (fun i j => 1/2 * (m i j + transpose m i j))) Pfree)
        = contract m (mulMM Pfree Pfree) := by
      simp only [M3.trace, mulMM, transpose, contract, Fin.sum_univ_three, hsym 1 0, hsym 2 0, hsym 2 1]
      ring
    rw [h]
    simp only [contract, hproj]
  intro a b
  unfold constrainLat
  cases statP
  · simp only [Bool.false_eq_true, if_false, contract, mulMM, transpose, Fin.sum_univ_three, hsym 1 0, hsym 2 0, hsym 2 1]
    ring
  · simp only [if_true, ht]
    simp only [contract, Fin.sum_univ_three]
    ring

/-! ### Witnesses -/

/-- Two atoms with masses 1 and 2, nothing constrained. -/
def freeCs (n : Nat) : Fin n → Constraint ℝ Nat := fun _ => ⟨1, .none⟩

/-- Unit lattice. -/
def unitR : Mat ℝ := diag 1 1 1

theorem det_unitR : det unitR = 1 := by simp [unitR, det, box, dot, cross, row, vec, diag]

/-- No thermostat. -/
noncomputable def plain : Params := ⟨.none, false, 1, 1, 1, 3, 3, 0⟩

/-- Two atoms with masses `m0` and `m1`, pushed apart by a unit force. -/
noncomputable def pair (m0 m1 : ℝ) : Sys 2 := ⟨fun a => if a = 0 then m0 else m1, 3, 3, constrain (1e-10) false (freeCs 2) id, id⟩

/-- Unit force apart. -/
def apart : Motion ℝ 2 := fun a => if a = 0 then vec 1 0 0 else vec (-1) 0 0

/-- Their motion. The acceleration of each is half the relative acceleration. -/
noncomputable def pairV (g : ℝ) (t : ℝ) : Vel 2 := ⟨fun a => if a = 0 then vec (1 + g * t) 0 0 else vec (-(1 + g * t)) 0 0, 0, 0, 0⟩

theorem free_any (n : Nat) : anyConstrained (freeCs n) false = false := by
  simp [anyConstrained, freeCs, getDimension]

theorem free_groups (n : Nat) : NoGroups (freeCs n) := fun _ _ h => by cases h

theorem pair_con (x : Motion ℝ 2) (m0 m1 : ℝ) : (pair m0 m1).con x = subtractMean x := by
  show constrain _ false (freeCs 2) id x = _
  rw [constrain_nogroups _ _ _ (free_groups 2), free_any, perAtom_free _ _ (free_any 2)]
  rfl

/-- The two atoms move as the code integrates them, whatever the masses: the distance `2 t + g t²` is a solution with
`g` the relative acceleration divided by 2. -/
theorem pair_moves (m0 m1 : ℝ) (h0 : m0 ≠ 0) (h1 : m1 ≠ 0) :
    Moves plain (pair m0 m1) (fun _ => unitR) (pairV ((1 / m0 + 1 / m1) / 2)) (fun t => -(2 * t + (1 / m0 + 1 / m1) / 2 * t ^ 2)) apart 0 0 := by
  constructor
  · refine ((((hasDerivAt_id (0 : ℝ)).const_mul 2).fun_add (((hasDerivAt_id (0 : ℝ)).fun_pow 2).const_mul _)).fun_neg).congr_deriv ?_
    simp [power, pairV, apart, Fin.sum_univ_two, Fin.sum_univ_three, vec, contract]
    norm_num
  · intro i j
    refine (hasDerivAt_const _ _).congr_deriv ?_
    simp [pairV, mulMM]
  · rw [det_unitR]; norm_num
  · rw [pair_con]
    funext a i
    simp only [subtractMean, pairV, Fin.sum_univ_two]
    match a, i with
    | 0, 0 | 0, 1 | 0, 2 | 1, 0 | 1, 1 | 1, 2 => simp [vec]
  · rfl
  · refine ⟨⟨0, 0, 0, 0⟩, rfl, ?_, fun i j => hasDerivAt_const _ _, fun j => hasDerivAt_const _ _, fun j => hasDerivAt_const _ _⟩
    intro a i
    rw [pair_con]
    have hl : HasDerivAt (fun τ : ℝ => 1 + (1 / m0 + 1 / m1) / 2 * τ) ((1 / m0 + 1 / m1) / 2) 0 :=
      (((hasDerivAt_id (0 : ℝ)).const_mul _).const_add 1).congr_deriv (by simp)
    match a, i with
    | 0, 0 =>
      refine hl.congr_deriv ?_
      simp [subtractMean, pair, apart, Fin.sum_univ_two, vec]; field_simp; ring
    | 1, 0 =>
      refine hl.fun_neg.congr_deriv ?_
      simp [subtractMean, pair, apart, Fin.sum_univ_two, vec]; field_simp; ring
    | 0, 1 | 0, 2 | 1, 1 | 1, 2 =>
      refine (hasDerivAt_const _ _).congr_deriv ?_
      simp [subtractMean, pair, apart, Fin.sum_univ_two, vec]

/-- The hypotheses of `C89_energy` are met by two equal atoms. -/
example : HasDerivAt (fun τ => atomKE (pair 3 3).mass (pairV ((1 / 3 + 1 / 3) / 2) τ).ion + -(2 * τ + (1 / 3 + 1 / 3) / 2 * τ ^ 2)) 0 0 :=
  C89_energy plain (pair 3 3) rfl (fun a => by simp [pair])
    (C89_workless _ false (freeCs 2) (free_groups 2) _ (Or.inr ⟨3, fun a => by simp [pair]⟩)) _ _ _ _ _ 0 rfl
    (pair_moves 3 3 (by norm_num) (by norm_num))

/-- **C89 is false for the code** for atoms of different mass when nothing is constrained: the mean acceleration is subtracted
without weighting by mass (IonicMinimizer.cpp:385-397), so that kinetic plus potential energy is not conserved. For masses 1 and 2
that fly apart it grows by a quarter of the force times the speed. -/
theorem C89_energy_violation :
    Moves plain (pair 1 2) (fun _ => unitR) (pairV (3 / 4)) (fun t => -(2 * t + 3 / 4 * t ^ 2)) apart 0 0 ∧
    HasDerivAt (fun τ => atomKE (pair 1 2).mass (pairV (3 / 4) τ).ion + -(2 * τ + 3 / 4 * τ ^ 2)) (1 / 4) 0 := by
  have h := pair_moves 1 2 (by norm_num) (by norm_num)
  rw [show ((1 : ℝ) / 1 + 1 / 2) / 2 = 3 / 4 by norm_num] at h
  refine ⟨h, ?_⟩
  refine (C89_energy_drift plain (pair 1 2) rfl (fun a => ?_) (1e-10) (freeCs 2) (fun a => ⟨by simp [freeCs], rfl⟩) rfl _ _ _ _ _ 0 rfl
    h).congr_deriv ?_
  · match a with
    | 0 | 1 => simp [pair]
  · simp [pair, pairV, apart, Fin.sum_univ_two, Fin.sum_univ_three, vec]; norm_num

/-- Every state with allowed velocities, any forces and any stress can occur in `Moves`. -/
theorem moves_exists {n : Nat} (p : Params) (s : Sys n) (R0 : Mat ℝ) (hR0 : det R0 ≠ 0) (v0 : Vel n) (F : Motion ℝ n) (stress : Mat ℝ)
    (h1 : s.con v0.ion = v0.ion) (h2 : s.conL v0.lat = v0.lat) (r : Vel n) (hr : thermostat p s |det R0| stress v0 = .ok r) :
    ∃ R v PE, v 0 = v0 ∧ R 0 = R0 ∧ Moves p s R v PE F stress 0 := by
  have lin : ∀ x y : ℝ, HasDerivAt (fun τ : ℝ => x + τ * y) y 0 := fun x y =>
    (((hasDerivAt_id (0 : ℝ)).mul_const y).const_add x).congr_deriv (by simp)
  refine ⟨fun τ i j => R0 i j + τ * mulMM v0.lat R0 i j,
    fun τ => ⟨fun a i => v0.ion a i + τ * (s.con (fun a => (1 / s.mass a) • F a) a i + r.ion a i),
      fun i j => v0.lat i j + τ * r.lat i j, fun j => v0.th j + τ * r.th j, fun j => v0.ba j + τ * r.ba j⟩,
    fun τ => 0 + τ * (-power F v0.ion + |det R0| * contract stress v0.lat), ?_, ?_, ?_⟩
  · simp
  · simp
  · constructor
    · simpa using lin 0 (-power F v0.ion + |det R0| * contract stress v0.lat)
    · intro i j; simpa using lin (R0 i j) (mulMM v0.lat R0 i j)
    · simpa using hR0
    · simpa using h1
    · simpa using h2
    · refine ⟨r, by simpa using hr, fun a i => lin _ _, fun i j => lin _ _, fun j => lin _ _, fun j => lin _ _⟩

/-- One atom confined to a plane and one to a line. -/
def boxedCs : Fin 2 → Constraint ℝ Nat := fun a => if a = 0 then ⟨1, .planar (vec 0 0 1)⟩ else ⟨1, .linear (vec 1 0 0)⟩

/-- These atoms with different masses in an isotropic barostat. -/
noncomputable def boxed : Sys 2 := ⟨fun a => if a = 0 then 1 else 5, 3, 1,
  constrain (1e-10) false boxedCs id,
  constrainLat true unitR⟩

/-- Chains of three and two elements, target pressure 2. -/
noncomputable def nptParams : Params := ⟨.noseHoover, true, 1, 10, 20, 3, 2, fun i j => if i = j then -2 else 0⟩

theorem boxed_any : anyConstrained boxedCs false = true := by
  simp [anyConstrained, getDimension, List.finRange, boxedCs]

theorem boxed_groups : NoGroups boxedCs := by
  intro a planes h
  match a with
  | 0 => simp [boxedCs] at h
  | 1 => simp [boxedCs] at h

/-- Velocities of atoms, lattice and chains. -/
noncomputable def boxedV : Vel 2 := ⟨fun a => if a = 0 then vec 1 2 0 else vec 3 0 0, unitR, fun _ => 1, fun _ => 1⟩

theorem boxedV_ion : boxed.con boxedV.ion = boxedV.ion := by
  show constrain (1e-10) false boxedCs id boxedV.ion = boxedV.ion
  rw [constrain_nogroups _ _ _ boxed_groups, if_pos boxed_any]
  funext a i
  match a, i with
  | 0, 0 | 0, 1 | 0, 2 | 1, 0 | 1, 1 | 1, 2 => simp [perAtom, applyOne, vec, dot, boxedV, boxedCs]

theorem boxedV_lat : boxed.conL boxedV.lat = boxedV.lat := by
  show constrainLat true unitR unitR = unitR
  funext i j
  match i, j with
  | 0, 0 | 0, 1 | 0, 2 | 1, 0 | 1, 1 | 1, 2 | 2, 0 | 2, 1 | 2, 2 =>
    simp [constrainLat, unitR, diag, mulMM, vec, M3.trace, transpose] <;> norm_num

/-- The hypotheses of `C89_pressure_energy` are met: moving atoms, expanding lattice, chains in motion. -/
example : ∃ R v PE F, v 0 = boxedV ∧ Moves nptParams boxed R v PE F unitR 0 ∧ Workless boxed.mass boxed.con ∧ WorklessL boxed.conL := by
  obtain ⟨r, hr⟩ := (C89_defined nptParams boxed |det unitR| unitR boxedV).2
    (fun _ => ⟨by simp [nptParams], fun _ => by simp [nptParams]⟩)
  obtain ⟨R, v, PE, h1, -, h3⟩ := moves_exists nptParams boxed unitR (by rw [det_unitR]; norm_num) boxedV (fun _ => vec 1 1 1) unitR
    boxedV_ion boxedV_lat r hr
  refine ⟨R, v, PE, _, h1, h3, C89_workless _ _ _ boxed_groups _ (Or.inl boxed_any), C89_lattice_workless true unitR ?_ ?_⟩
  · intro i j
    match i, j with
    | 0, 0 | 0, 1 | 0, 2 | 1, 0 | 1, 1 | 1, 2 | 2, 0 | 2, 1 | 2, 2 => simp [unitR, diag]
  · intro i j
    match i, j with
    | 0, 0 | 0, 1 | 0, 2 | 1, 0 | 1, 1 | 1, 2 | 2, 0 | 2, 1 | 2, 2 => simp [unitR, diag, mulMM, vec]

/-- Two atoms whose mean position along x is fixed by a collective constraint. -/
def meanFixed : Fin 2 → Constraint ℝ Nat := fun _ => ⟨1, .hyperPlane [(vec 1 0 0, 0)]⟩

/-- Sum of the x components. -/
def sumX : Motion ℝ 2 →ₗ[ℝ] ℝ where
  toFun x := x 0 0 + x 1 0
  map_add' x y := by simp; ring
  map_smul' c x := by simp; ring

theorem meanFixed_labels : groupLabels meanFixed = [0] := by
  simp [groupLabels, meanFixed, labelsOf, List.finRange, insertKey]

theorem meanFixed_constrain (x : Motion ℝ 2) : constrain (1e-10) false meanFixed id x
    = x + (-((x 0 0 + x 1 0) / 2)) • (fun _ => vec 1 0 0 : Motion ℝ 2) := by
  have ha : anyConstrained meanFixed false = true := by simp [anyConstrained, meanFixed, List.finRange]
  have hp : perAtom meanFixed x = x := by funext a; simp [perAtom, meanFixed, applyOne]
  have hv : groupVec meanFixed 0 = (fun _ => vec 1 0 0 : Motion ℝ 2) := by
    funext a; simp [groupVec, groupEntry, meanFixed]
  have hD : dotM (fun _ => vec 1 0 0 : Motion ℝ 2) (fun _ => vec 1 0 0) = 2 := by
    simp [dotM, dot, vec]
  have hx : dotM (fun _ => vec 1 0 0 : Motion ℝ 2) x = x 0 0 + x 1 0 := by
    simp [dotM, dot, vec, Fin.sum_univ_two]
  simp only [constrain, id, constrainCore, meanFixed_labels, List.foldl_cons, List.foldl_nil, ha, if_true, hp, hv, projectOut, hD, hx]
  rw [if_pos (by norm_num)]
  congr 2; ring

/-- **C89 is false for the code** with collective constraints: they are not counted by `getDimension` (SpeciesInfo.cpp:61-68), so
that a centre of mass that can move is discounted and the constraint is not. Two atoms with one collective constraint have 5
allowed directions; the code uses 3. -/
theorem C89_degrees_violation : countDOF meanFixed = .ok 3 ∧ Module.finrank ℝ (LinearMap.range (constrainL (1e-10) false meanFixed)) = 5 := by
  constructor
  · simp [countDOF, getDimension, meanFixed]
  · have hr : LinearMap.range (constrainL (1e-10) false meanFixed) = LinearMap.ker sumX := by
      ext x
      rw [LinearMap.mem_range, LinearMap.mem_ker]
      constructor
      · rintro ⟨y, rfl⟩
        show sumX (constrain (1e-10) false meanFixed id y) = 0
        rw [meanFixed_constrain]
        simp [sumX, vec]; ring
      · intro hx
        have hx' : x 0 0 + x 1 0 = 0 := hx
        refine ⟨x, ?_⟩
        show constrain (1e-10) false meanFixed id x = x
        rw [meanFixed_constrain, hx']; simp
    have r := LinearMap.finrank_range_add_finrank_ker sumX
    have surj : LinearMap.range sumX = ⊤ := by
      rw [LinearMap.range_eq_top]
      intro y
      exact ⟨fun a => if a = 0 then vec y 0 0 else 0, by simp [sumX, vec]⟩
    rw [surj, finrank_top, Module.finrank_self] at r
    have h6 : Module.finrank ℝ (Motion ℝ 2) = 6 := by rw [Module.finrank_pi_fintype]; simp
    rw [hr]; omega

/-- **C89 is false for the code** with external potentials on the atoms: the overall translation is not removed from the motion
(IonicMinimizer.cpp:185-186) but is discounted from the number of degrees of freedom, so that a single atom in an external
potential is rejected although it can move in three directions. -/
theorem C89_external_violation : countDOF (freeCs 1) = .error .die ∧
    Module.finrank ℝ (LinearMap.range (constrainL (1e-10) true (freeCs 1))) = 3 := by
  constructor
  · simp [countDOF, getDimension, freeCs]
  · have : LinearMap.range (constrainL (1e-10) true (freeCs 1)) = ⊤ := by
      rw [LinearMap.range_eq_top]
      intro x
      refine ⟨x, ?_⟩
      show constrain (1e-10) true (freeCs 1) id x = x
      rw [constrain_nogroups _ _ _ (free_groups 1)]
      have : perAtom (freeCs 1) x = x := by funext a; simp [perAtom, freeCs, applyOne]
      rw [this]; simp [anyConstrained]
    rw [this, finrank_top, Module.finrank_pi_fintype]; simp

/-- **C89 is false for the code** when no atom can move: the number of degrees of freedom is 1 (Everything.cpp:174), the check for
none does not apply, and the random initial velocities are not numbers. -/
theorem C89_fixed_violation (n : Nat) (hn : n ≠ 0) (mass : Fin n → ℝ) (nFree : Nat) (conL : Mat ℝ → Mat ℝ) (amu T0 : ℝ) (draw : Motion ℝ n) :
    let cs : Fin n → Constraint ℝ Nat := fun _ => ⟨0, .none⟩
    countDOF cs = .ok 1 ∧ initializeVelocities ⟨mass, 1, nFree, constrain (1e-10) false cs id, conL⟩ amu T0 draw = none := by
  intro cs
  have h0 : ∀ a, getDimension (cs a) = 0 := fun a => by simp [cs, getDimension]
  constructor
  · simp only [countDOF, h0, Finset.sum_const_zero, if_true]
    rw [if_neg (by omega : ¬ 1 = 3 * n), if_neg (by norm_num : ¬ (1 : Nat) = 0)]
  · have hz : ∀ x, constrain (1e-10) false cs id x = 0 := by
      intro x
      have hany : anyConstrained cs false = true := by
        simp only [anyConstrained, Bool.false_or, List.any_eq_true]
        exact ⟨⟨0, Nat.pos_of_ne_zero hn⟩, List.mem_finRange _, by simp [h0]⟩
      rw [constrain_nogroups _ _ _ (fun a planes h => by cases h), if_pos hany]
      funext a
      simp [perAtom, applyOne, cs]
    simp only [initializeVelocities, hz]
    rw [if_pos]
    simp [kinetic, dot]

/-- The hypotheses of `C89_degrees`: two free atoms have 3 degrees of freedom, the constrained pair above as well. -/
example : countDOF (freeCs 2) = .ok 3 := by simp [countDOF, getDimension, freeCs]
example : countDOF boxedCs = .ok boxed.nDOF := by
  simp [countDOF, getDimension, boxed, boxedCs]

/-- The hypotheses of `C89_initial`: random numbers that give a moving pair. -/
example : ∃ v, initializeVelocities (pair 1 1) 1 300 apart = some v := by
  unfold initializeVelocities
  simp only [pair_con]
  rw [if_neg]
  · exact ⟨_, rfl⟩
  · simp [kinetic, subtractMean, pair, apart, Fin.sum_univ_two, dot, vec]

end Jdftx.Stat
