import Verif.Model.FluidFex
import Verif.Model.FluidTrans
import Verif.Model.PCMSolve
import Verif.Model.Outcome

/-!
# Model of the free energy of a mixture of classical fluids
(jdftx/fluid/FluidMixtureCompute.cpp `FluidMixture::operator()`, IdealGasMonoatomic.cpp, IdealGasPomega.cpp, IdealGasPsiAlpha.cpp, IdealGasMuEps.cpp)

Exact real arithmetic. One process. Not modelled: polarizable molecules, the correction `Gzero` (lines 149-162, applied if the kernels of fluid and electrons differ and free
charged species are present), and the outputs other than the energy and its gradient.
-/
namespace Jdftx.Fluid
open Box ExCorr Cavity
noncomputable section

/-! ### Ideal gases -/

/-- The functions of class `IdealGas` for a molecule with `n + 1` sites, and `nI` independent fields. -/
structure Gas (n : Nat) where
  nI : Nat
  /-- `getDensities`: the site densities, -/
  N : (Fin nI → Field) → Fin (n + 1) → Field
  /-- and the polarization. -/
  P0 : (Fin nI → Field) → Fin 3 → ℝ
  /-- `compute`: the energy, for the densities `N` and the scale factor, -/
  energy : (Fin nI → Field) → (Fin (n + 1) → Field) → ℝ → ℝ
  /-- what is added to the gradient with respect to densities, -/
  addN : (Fin nI → Field) → Fin (n + 1) → Field
  /-- and what is added to the derivative with respect to the scale factor. -/
  addScale : (Fin nI → Field) → ℝ
  /-- `convertGradients`, for the densities, the gradients with respect to densities and polarization, and the scale factor. -/
  conv : (Fin nI → Field) → (Fin (n + 1) → Field) → (Fin (n + 1) → Field) → (Fin 3 → ℝ) → ℝ → Fin nI → Field

variable (g : Grid)

/-- Operators.cpp `integral` of a real field. -/
def integ (x : Field) : ℝ := g.dV * ∑ j ∈ Finset.range (nr g.S), x j

/-- Operators.cpp `dot` of real fields. -/
def dotF (x y : Field) : ℝ := ∑ j ∈ Finset.range (nr g.S), x j * y j

/-- IdealGasMonoatomic.cpp:40-54. Arguments: temperature, chemical potential, bulk density, external potential. -/
def gasMono (T mu Nbulk : ℝ) (V : Field) : Gas 0 where
  nI := 1
  N := fun psi _ j => Nbulk * Real.exp (psi 0 j)
  P0 := fun _ _ => 0
  energy := fun psi N _ => g.dV * dotF g (N 0) fun j => T * psi 0 j + V j - (mu + T)
  addN := fun psi _ j => (T * psi 0 j + V j - (mu + T)) + T
  addScale := fun _ => 0
  conv := fun _ N Phi_N _ _ _ j => N 0 j * Phi_N 0 j

/-- What a molecule with orientations needs: IdealGasPomega.h. -/
structure Orient (n nO : Nat) where
  T : ℝ
  mu : ℝ
  Nbulk : ℝ
  /-- Number of equivalent positions of the first site. -/
  mult0 : Nat
  /-- Quadrature weight of each orientation. -/
  weight : Fin nO → ℝ
  /-- The displacements of a site in an orientation, `rot*pos`, in lattice coordinates. -/
  disp : Fin nO → Fin (n + 1) → List (Fin 3 → ℝ)
  /-- The dipole moment in an orientation, `rot*pMol`. -/
  dip : Fin nO → Fin 3 → ℝ
  trans : TransOp
  /-- External potentials (0 if there is none). -/
  V : Fin (n + 1) → Field
  /-- `molecule.mfKernel`. -/
  mfKernel : Nat → ℝ
  corrPrefac : ℝ

/-- The representations of the orientation densities by independent fields. -/
inductive Rep
  | pomega
  | psiAlpha
  | muEps

/-- The number of independent fields: IdealGasPomega.cpp:24, IdealGasPsiAlpha.cpp, IdealGasMuEps.cpp:24. -/
def Rep.nI (n nO : Nat) : Rep → Nat
  | .pomega => nO
  | .psiAlpha => n + 1
  | .muEps => 4

section
variable {n nO : Nat} (o : Orient n nO)

/-- Sum of a field translated by each of a list of displacements. -/
def Orient.move (l : List (Fin 3 → ℝ)) (x : Field) : Field := fun j => (l.map fun f => o.trans.run g.S f x j).sum

/-- The displacements, reversed. -/
def back (l : List (Fin 3 → ℝ)) : List (Fin 3 → ℝ) := l.map fun f k => -f k

/-- IdealGasMuEps.cpp:39-44. -/
def Orient.logMuEps (psi : Fin 4 → Field) (w : Fin nO) : Field := fun j => psi 0 j + (o.dip w 0 * psi 1 j + o.dip w 1 * psi 2 j + o.dip w 2 * psi 3 j)

/-- IdealGasMuEps.cpp:46-51, summed over orientations. -/
def Orient.gradMuEps (Phi : Fin nO → Field) : Fin 4 → Field :=
  ![fun j => ∑ w, Phi w j, fun j => ∑ w, o.dip w 0 * Phi w j, fun j => ∑ w, o.dip w 1 * Phi w j, fun j => ∑ w, o.dip w 2 * Phi w j]

/-- `getDensities_o`: IdealGasPomega.cpp:37-39, IdealGasPsiAlpha.cpp:49-53, IdealGasMuEps.cpp:39-44. -/
def Orient.logP : (r : Rep) → (Fin (r.nI n nO) → Field) → Fin nO → Field
  | .pomega, psi, w => psi w
  | .psiAlpha, psi, w => fun j => ∑ i, o.move g (back (o.disp w i)) (psi i) j
  | .muEps, psi, w => o.logMuEps psi w

/-- `convertGradients_o`, summed over orientations: IdealGasPomega.cpp:41-43, IdealGasPsiAlpha.cpp:55-59, IdealGasMuEps.cpp:46-51. -/
def Orient.gradRep : (r : Rep) → (Fin nO → Field) → Fin (r.nI n nO) → Field
  | .pomega, Phi => fun k => Phi k
  | .psiAlpha, Phi => fun i j => ∑ w, o.move g (o.disp w i) (Phi w) j
  | .muEps, Phi => o.gradMuEps Phi

variable (r : Rep) (psi : Fin (r.nI n nO) → Field)

/-- IdealGasPomega.cpp:92: the density of molecules of an orientation. -/
def Orient.No (w : Fin nO) : Field := fun j => o.weight w * o.Nbulk * Real.exp (o.logP g r psi w j)

/-- Lines 94-96. -/
def Orient.N (i : Fin (n + 1)) : Field := fun j => ∑ w, o.move g (o.disp w i) (o.No g r psi w) j

/-- Line 98. -/
def Orient.S : ℝ := ∑ w, g.dV * dotF g (o.No g r psi w) (o.logP g r psi w)

/-- Line 100. -/
def Orient.P (k : Fin 3) : Field := fun j => ∑ w, o.dip w k * o.No g r psi w j

/-- Line 109. -/
def Orient.P0 (k : Fin 3) : ℝ := (∑ j ∈ Finset.range (nr g.S), o.P g r psi k j) / nr g.S

/-- Line 110. -/
def Orient.EcorrP (k : Fin 3) : Field :=
  fftI g.S (wMul o.mfKernel (wMul o.mfKernel fun i => (o.corrPrefac : ℂ) * fftJ g.S (o.P g r psi k) i))

/-- Line 111. -/
def Orient.Ecorr : ℝ := 0.5 * g.dV * ∑ k, dotF g (o.EcorrP g r psi k) (o.P g r psi k)

/-- Lines 145-153: gradient with respect to the density of an orientation. -/
def Orient.PhiNo (PhiN : Fin (n + 1) → Field) (PhiP : Fin 3 → ℝ) (ns : ℝ) (w : Fin nO) : Field := fun j =>
  ∑ i, o.move g (back (o.disp w i)) (PhiN i) j + o.T * o.logP g r psi w j + (∑ k, o.dip w k * (ns * o.EcorrP g r psi k j) + ∑ k, o.dip w k * PhiP k)

/-- IdealGasPomega.cpp:83-158. For a molecule without dipole moment, the terms skipped by the code are zero here (`dip = 0`). -/
def Orient.gas : Gas n where
  nI := r.nI n nO
  N := o.N g r
  P0 := o.P0 g r
  energy := fun psi N ns => ∑ i, g.dV * dotF g (N i) (o.V i) - (o.T + o.mu) * integ g (N 0) * (1 / o.mult0) + ns * (o.T * o.S g r psi + o.Ecorr g r psi)
  addN := fun _ i j => o.V i j - (if i = 0 then o.mu * (1 / o.mult0) else 0)
  addScale := fun psi => o.T * o.S g r psi + o.Ecorr g r psi
  conv := fun psi _ PhiN PhiP ns => o.gradRep g r fun w j => (ns * o.No g r psi w j) * o.PhiNo g r psi PhiN PhiP ns w j

end

/-! ### The terms that depend on densities only through their Fourier transforms (lines 143-360) -/

/-- Densities of all sites of all components; `ns c` sites. -/
abbrev DN {C : Nat} (ns : Fin C → Nat) : Type := (c : Fin C) → Fin (ns c) → Arr

/-- Polarizations of the components. -/
abbrev DP (C : Nat) : Type := Fin C → Fin 3 → ℝ

/-- A contribution to the energy, what it adds to `Phi_Ntilde`, and to `Phi_P0`. -/
structure Term {C : Nat} (ns : Fin C → Nat) where
  E : DN ns → DP C → Option ℝ
  GN : DN ns → DP C → DN ns
  GP : DN ns → DP C → DP C

section
variable {C : Nat} {ns : Fin C → Nat}

/-- Lines 164-274 without polarizability: charges in their own field, in the field of `rhoExternal`, and dipoles in the field `Eext`. Sites are given by the kernel of their charge
(0 if there is none) and its value at zero; `mf` is the mean-field kernel of each component. -/
def termCoulomb (q : (c : Fin C) → Fin (ns c) → Nat → ℝ) (mf : Fin C → Nat → ℝ) (useMF : Bool) (rhoExt : Arr) (Eext : Fin 3 → ℝ) : Term ns :=
  let rho (N : DN ns) : Arr := fun i => ∑ c, ∑ s, wMul (q c s) (N c s) i
  let rhoMF (N : DN ns) : Arr := fun i => ∑ c, ∑ s, ((q c s 0 : ℝ) : ℂ) * wMul (mf c) (N c s) i
  let Od : Arr := PCM.opO g (PCM.coulomb g rhoExt)
  let PhiRho : Arr := fun i => if useMF then 0 else Od i
  let PhiRhoMF (N : DN ns) : Arr := fun i => (if useMF then Od i else 0) + PCM.opO g (PCM.coulomb g (rhoMF N)) i
  let Ptot (P : DP C) (k : Fin 3) : ℝ := ∑ c, P c k
  let PhiP (P : DP C) (k : Fin 3) : ℝ := (4 * Real.pi * g.detR) * Ptot P k
  { E := fun N P => some (dotHalf g.S (if useMF then rhoMF N else rho N) Od + 0.5 * dotHalf g.S (rhoMF N) (PCM.opO g (PCM.coulomb g (rhoMF N)))
      + 0.5 * (∑ k, PhiP P k * Ptot P k) - g.detR * ∑ k, Eext k * Ptot P k)
    GN := fun N _ c s i => ((1 / g.dV : ℝ) : ℂ) * wMul (q c s) PhiRho i + ((q c s 0 / g.dV : ℝ) : ℂ) * wMul (mf c) (PhiRhoMF N) i
    GP := fun _ P _ k => (1 / g.detR) * (PhiP P k - g.detR * Eext k) }

/-- Lines 276-352: hard spheres. `pick` tells which sites are spheres. -/
def termSpheres (m : Mix C) (pick : (c : Fin C) → Fin (m.ns c) → Fin (ns c)) : Term ns where
  E := fun N _ => hardSphere g m fun c s => N c (pick c s)
  GN := fun N _ c i k => ∑ s, if pick c s = i then hardSphereGrad g m (fun c s => N c (pick c s)) c s k else 0
  GP := fun _ _ _ _ => 0

/-- Lines 354-356 for Fex_ScalarEOS.cpp: equation of state of a component. -/
def termEos (c0 : Fin C) {n : Nat} (sites : Fin n → Site) (pick : Fin n → Fin (ns c0)) (w : Nat → ℝ) (e : ℝ → Option (ℝ × ℝ)) : Term ns where
  E := fun N _ => eosE g sites w e fun s => N c0 (pick s)
  GN := fun N _ c i k => if h : c = c0 then ∑ s, if pick s = h ▸ i then eosGrad g sites w e (fun s => N c0 (pick s)) s k else 0 else 0
  GP := fun _ _ _ _ => 0

/-- Lines 358-360 for Fmix_LJ and Fmix_GaussianKernel: a kernel between two sites. -/
def termPair (c1 : Fin C) (s1 : Fin (ns c1)) (c2 : Fin C) (s2 : Fin (ns c2)) (a : ℝ) (w : Nat → ℝ) : Term ns where
  E := fun N _ => some (mixE g a w (N c1 s1) (N c2 s2)).1
  GN := fun N _ c i k => (if h : c = c1 then if s1 = h ▸ i then (mixE g a w (N c1 s1) (N c2 s2)).2.1 k else 0 else 0)
    + (if h : c = c2 then if s2 = h ▸ i then (mixE g a w (N c1 s1) (N c2 s2)).2.2 k else 0 else 0)
  GP := fun _ _ _ _ => 0

/-- The sum of contributions. -/
def termSum (l : List (Term ns)) : Term ns where
  E := fun N P => addO (l.map fun t => t.E N P)
  GN := fun N P c i k => (l.map fun t => t.GN N P c i k).sum
  GP := fun N P c k => (l.map fun t => t.GP N P c k).sum

end

/-! ### The mixture -/

/-- A component: FluidComponent.h. -/
structure CompM (n : Nat) where
  gas : Gas n
  /-- `molecule.sites[0]->positions.size()`. -/
  mult0 : Nat
  /-- The prescribed number of molecules, if positive. -/
  Nnorm : ℝ
  /-- `molecule.getCharge()`. -/
  Q : ℝ

/-- FluidMixture.h: component number `c` has `ns c + 1` sites. -/
structure MixF (C : Nat) where
  ns : Fin C → Nat
  comp : (c : Fin C) → CompM (ns c)
  T : ℝ
  p : ℝ
  /-- `integral(rhoExternal)`. -/
  Qext : ℝ
  Qtol : ℝ
  terms : List (Term fun c => ns c + 1)

section
variable {C : Nat} (m : MixF C)

/-- The independent fields. -/
abbrev MixF.State : Type := (c : Fin C) → Fin (m.comp c).gas.nI → Field

/-- Line 84: the number of molecules is prescribed. -/
def MixF.fixed (c : Fin C) : Prop := 0 < (m.comp c).Nnorm

/-- Lines 82-92, 120: the number of molecules adapts to make the cell neutral. -/
def MixF.free (c : Fin C) : Prop := (m.comp c).Q ≠ 0 ∧ ¬ 0 < (m.comp c).Nnorm

/-- Lines 76-94. -/
def MixF.Qfixed : ℝ := open Classical in m.Qext + ∑ c, if m.fixed c then (m.comp c).Q * (m.comp c).Nnorm else 0

variable (N0 : Fin C → ℝ)

/-- Lines 29-43 `Qtot`: the value. -/
def MixF.Qtot (betaV : ℝ) : ℝ := open Classical in ∑ c, if m.free c then (m.comp c).Q * (N0 c * Real.exp (-(m.comp c).Q * betaV)) else 0

/-- Lines 29-43 `Qtot`: the derivative. -/
def MixF.Qprime (betaV : ℝ) : ℝ := open Classical in ∑ c, if m.free c then -(m.comp c).Q * (m.comp c).Q * (N0 c * Real.exp (-(m.comp c).Q * betaV)) else 0

/-- Lines 108-116: at most `fuel` further iterations, from `betaV` and the last value of `Qprime`. Not-a-number results (lines 112-113) do not occur in exact arithmetic with positive numbers of molecules. -/
def MixF.newton : Nat → ℝ × ℝ → ℝ × ℝ
  | 0, s => s
  | k + 1, s =>
    let Qcell := m.Qfixed + m.Qtot N0 s.1
    let Qprime := m.Qprime N0 s.1
    if |Qcell| < |m.Qtol| then (s.1, Qprime) else MixF.newton k (s.1 - Qcell / Qprime, Qprime)

/-- Lines 95-116: `betaV` and `Qprime` (both 0 if there are no free charged components, where they are not used). At infinite `betaV`, `exp` is infinite for charges of one sign and zero for those of the other
(positive numbers of molecules are assumed), so the total charge is infinite if there are free charges of the sign in question, and else zero. -/
def MixF.solve : Res (ℝ × ℝ) := open Classical in
  if ¬ ∃ c, m.free c then
    if |m.Qfixed| > |m.Qtol| then .error .die else .ok (0, 0)
  else if (¬ ∃ c, m.free c ∧ 0 < (m.comp c).Q) ∧ m.Qfixed + 0 < 0 then .error .die
  else if (¬ ∃ c, m.free c ∧ (m.comp c).Q < 0) ∧ m.Qfixed + 0 > 0 then .error .die
  else .ok (m.newton N0 10 (0, 0))

variable (betaV Qp : ℝ)

/-- Lines 69, 85, 121: `Nscale`. -/
def MixF.nscale (c : Fin C) : ℝ := open Classical in
  if m.fixed c then (m.comp c).Nnorm / N0 c else if m.free c then Real.exp (-(m.comp c).Q * betaV) else 1

/-- Lines 72, 86, 127: `Nscale_N0`. -/
def MixF.jac (c d : Fin C) : ℝ := open Classical in
  if m.fixed c then (if c = d then -(m.comp c).Nnorm / N0 c ^ 2 else 0)
  else if m.free c ∧ m.free d then (m.comp c).Q * (m.comp d).Q * Real.exp (-((m.comp c).Q + (m.comp d).Q) * betaV) / Qp else 0

variable (psi : m.State)

/-- Lines 51-61: site densities; negative values are replaced by 0. -/
def MixF.dens0 (c : Fin C) (i : Fin (m.ns c + 1)) : Field := fun j => let x := (m.comp c).gas.N (psi c) i j; if x < 0 then 0 else x

/-- Line 63. -/
def MixF.tilde0 (c : Fin C) (i : Fin (m.ns c + 1)) : Arr := fftJ g.S (m.dens0 psi c i)

/-- Line 83: the number of molecules before scaling (`integral` of a field given by its Fourier transform). -/
def MixF.count (c : Fin C) : ℝ := g.detR * (m.tilde0 g psi c 0 0).re / (m.comp c).mult0

variable (ns : Fin C → ℝ)

/-- Lines 135-138. -/
def MixF.tilde : DN fun c => m.ns c + 1 := fun c i k => (ns c : ℂ) * m.tilde0 g psi c i k

/-- Line 139. -/
def MixF.P0 : DP C := fun c k => (m.comp c).gas.P0 (psi c) k * ns c

/-- Line 369. -/
def MixF.N (c : Fin C) (i : Fin (m.ns c + 1)) : Field := fftI g.S (m.tilde g psi ns c i)

/-- Line 391. -/
def MixF.deltaTs (c : Fin C) : ℝ := m.T * Real.log (ns c) / (m.comp c).mult0

/-- The energy of a configuration: lines 143-395, 454. -/
def MixF.energy : Option ℝ := open Classical in
  addO [(termSum m.terms).E (m.tilde g psi ns) (m.P0 psi ns),
    some (∑ c, ((m.comp c).gas.energy (psi c) (m.N g psi ns c) (ns c) + (if ns c ≠ 1 then integ g (m.N g psi ns c 0) * m.deltaTs ns c else 0))),
    some (m.p * g.detR)]

/-- Lines 370, 387-392: gradient with respect to the scaled densities at constant scale factors. -/
def MixF.PhiN (c : Fin C) (i : Fin (m.ns c + 1)) : Field := open Classical in fun j =>
  Jdag g.S ((termSum m.terms).GN (m.tilde g psi ns) (m.P0 psi ns) c i) j + (m.comp c).gas.addN (psi c) i j + (if i = 0 ∧ ns c ≠ 1 then m.deltaTs ns c else 0)

/-- `Phi_P0`. -/
def MixF.PhiP : DP C := (termSum m.terms).GP (m.tilde g psi ns) (m.P0 psi ns)

/-- Lines 387, 396-408: derivative with respect to the scale factors. The test on line 403 only skips values that are multiplied by zero later. -/
def MixF.PhiScale (c : Fin C) : ℝ :=
  (m.comp c).gas.addScale (psi c) + g.detR * (∑ k, m.P0 psi ns c k * m.PhiP g psi ns c k) / ns c
    + ∑ i, g.dV * dotF g (m.N g psi ns c i) (m.PhiN g psi ns c i) / ns c

/-- Lines 409-418. -/
def MixF.PhiNtot (J : Fin C → Fin C → ℝ) (c : Fin C) (i : Fin (m.ns c + 1)) : Field := fun j =>
  m.PhiN g psi ns c i j + (if i = 0 then (∑ d, m.PhiScale g psi ns d * J d c) / (ns c * (m.comp c).mult0) else 0)

/-- Lines 420-426, 459. -/
def MixF.grad (J : Fin C → Fin C → ℝ) (c : Fin C) (k : Fin (m.comp c).gas.nI) : Field := fun j =>
  g.dV * (m.comp c).gas.conv (psi c) (m.N g psi ns c) (m.PhiNtot g psi ns J c) (m.PhiP g psi ns c) (ns c) k j

/-- `FluidMixture::operator()`: the energy and its gradient. -/
def MixF.evaluate : Res (Option ℝ × ((c : Fin C) → Fin (m.comp c).gas.nI → Field)) := do
  let N0 := m.count g psi
  let (betaV, Qp) ← m.solve N0
  pure (m.energy g psi (m.nscale N0 betaV), m.grad g psi (m.nscale N0 betaV) (m.jac N0 betaV Qp))

end
end
end Jdftx.Fluid
