import Verif.Model.FluidEx

/-!
# Model of the excess and mixing functionals of classical fluids
(jdftx/fluid/Fex_ScalarEOS_internal.h, Fex_ScalarEOS.cpp, Fex_H2O_FittedCorrelations*, Fex_LJ.cpp, Fex_H2O_BondedVoids.cpp)

Conventions as in `Model.FluidEx`. What is not a number becomes `none`. Numbers that are computed from the temperature by empirical formulas
(in the constructors of the equations of state) are parameters.
-/
namespace Jdftx.Fluid
open Box ExCorr Cavity
noncomputable section

/-! ### Equations of state (Fex_ScalarEOS_internal.h) -/

/-- Lines 37-42 `getAhs`: value and derivative. -/
def getAhs (T Vhs N : ℝ) : Option (ℝ × ℝ) :=
  open Classical in
  let n3 := Vhs * N
  if n3 ≥ 1 then none
  else
    let den := 1 / (1 - n3)
    some (T * (den * den) * n3 * (4 - 3 * n3), T * Vhs * (den * den * den) * 2 * (2 - n3))

/-- Lines 46-50: parameters of the equation of state of Jefferey and Austin; `lambda` and `C1` have fixed values. -/
structure JA where
  T : ℝ
  b : ℝ
  alpha : ℝ
  prefacHB : ℝ
  prefacVW2 : ℝ
  nHB : ℝ
  dnHB : ℝ
  nc : ℝ
  VPzi : ℝ

/-- Line 64. -/
def lambdaJA : ℝ := 0.3241
/-- Line 65. -/
def C1 : ℝ := 0.7140

/-- Line 77. -/
def JA.prefacVW1 (p : JA) : ℝ := -p.T * p.alpha / (lambdaJA * p.b)

/-- Lines 90-101 `getVPphiInt`: value and derivative. -/
def vpPhi (nc n : ℝ) : ℝ × ℝ :=
  let x := n / nc
  let xPowBetaM1 := x ^ (3.24 - 1 : ℝ)
  let xPow57 := x ^ (5.7 : ℝ)
  let den := 1 / (1.917 * (1 + 1.917 * x * (1 + 1.917 * x)) + x * 26.01 * xPowBetaM1)
  let den_x := -den * den * (1.917 * 1.917 * (1 + 1.917 * x * 2) + 3.24 * 26.01 * xPowBetaM1)
  let expTerm := Real.exp (-0.0610 * xPow57 * x)
  (-nc * expTerm * den, expTerm * (0.0610 * xPow57 * 6.7 * den - den_x))

/-- Lines 112-116: hydrogen bonds. -/
def ahb (p : JA) (N : ℝ) : ℝ × ℝ :=
  let gaussHB := Real.exp (((N - p.nHB) / p.dnHB) ^ 2)
  let fHBden := C1 + gaussHB
  let fHBdenPrime := gaussHB * 2 * (N - p.nHB) / p.dnHB ^ 2
  let AHB := p.prefacHB / fHBden
  (AHB, -AHB * fHBdenPrime / fHBden)

/-- Lines 118-121: van der Waals attraction. -/
def avwJA (p : JA) (N : ℝ) : Option (ℝ × ℝ) :=
  open Classical in
  let Ginv := 1 - lambdaJA * p.b * N
  if Ginv ≤ 0 then none
  else
    let v := vpPhi p.nc N
    some (p.prefacVW1 * Real.log Ginv + (p.VPzi * v.1 - N) * p.prefacVW2, p.T * p.alpha / Ginv + (p.VPzi * v.2 - 1) * p.prefacVW2)

/-- Lines 104-127 `JeffereyAustinEOS_eval::operator()`. -/
def eosJA (p : JA) (Vhs N : ℝ) : Option (ℝ × ℝ) :=
  open Classical in
  if N < 0 then some (0, 0)
  else do
    let hb := ahb p N
    let vw ← avwJA p N
    let f ← getAhs p.T Vhs N
    pure (hb.1 + vw.1 - f.1, hb.2 + vw.2 - f.2)

/-- Lines 133-134: parameters of the equation of state of Tao and Mason. -/
structure TM where
  T : ℝ
  b : ℝ
  lambda : ℝ
  prefacQuad : ℝ
  prefacVap : ℝ
  prefacPole : ℝ

/-- Lines 170-172. -/
def avwTM (p : TM) (N : ℝ) : Option (ℝ × ℝ) :=
  open Classical in
  let Ginv := 1 - p.lambda * p.b * N
  if Ginv ≤ 0 then none
  else some (N * p.prefacQuad + p.prefacPole * (-Real.log Ginv), p.prefacQuad + p.prefacPole * (p.lambda * p.b / Ginv))

/-- Lines 174-177. -/
def avapTM (p : TM) (N : ℝ) : ℝ × ℝ :=
  let b2term := Real.sqrt 1.8 * p.b * p.b
  let bn2term := b2term * N * N
  (p.prefacVap * Real.arctan bn2term, p.prefacVap * b2term * N * 2 / (1 + bn2term * bn2term))

/-- Lines 162-183 `TaoMasonEOS_eval::operator()`. -/
def eosTM (p : TM) (Vhs N : ℝ) : Option (ℝ × ℝ) :=
  open Classical in
  if N < 0 then some (0, 0)
  else do
    let vw ← avwTM p N
    let vap := avapTM p N
    let f ← getAhs p.T Vhs N
    pure (vw.1 + vap.1 - f.1, vw.2 + vap.2 - f.2)

/-! ### `Fex_ScalarEOS` (Fex_ScalarEOS.cpp) -/

/-- Fex_LJ.cpp:25-45 `setLJatt_calc` at `G = 0`, where the spherical Bessel functions of order 0 and 2 are 1 and 0 and the sine integral is 0. -/
def ljAtt0 (eps sigma : ℝ) : ℝ :=
  let kScale := sigma * (2 : ℝ) ^ (1 / 6 : ℝ)
  let result := (Real.pi / 1814400) * (-2 * 1 * (-564480 + 0)) + (4 * Real.pi / 3) * (2.2 * 1 + 0);
  -eps * kScale ^ 3 * result

/-- A site of the molecule: polarisability and multiplicity. -/
structure Site where
  alpha : ℝ
  mult : Nat

section
variable (g : Grid) {n : Nat} (sites : Fin n → Site) (w : Nat → ℝ) (e : ℝ → Option (ℝ × ℝ))

/-- Lines 52-58: `alphaTot`. -/
def alphaTot : ℝ := ∑ s, (sites s).alpha * (sites s).mult

/-- Lines 52-59: `NavgTilde`. -/
def navgTilde (N : Fin n → Arr) : Arr := fun i => ((1 / alphaTot sites : ℝ) : ℂ) * ∑ s, ((sites s).alpha : ℂ) * N s i

/-- Line 61: `Nbar`. -/
def eosNbar (N : Fin n → Arr) : Field := fftI g.S (wMul w (navgTilde sites N))

/-- Line 66: `Navg`. -/
def eosNavg (N : Fin n → Arr) : Field := fftI g.S (navgTilde sites N)

/-- Lines 50-72 `Fex_ScalarEOS::compute`: the energy. -/
def eosE (N : Fin n → Arr) : Option ℝ :=
  (sumO (nr g.S) fun j => (e (eosNbar g sites w N j)).map fun a => eosNavg g sites N j * a.1).map (g.dV * ·)

/-- Lines 63-71: what is added to `Phi_Ntilde`. -/
def eosGrad (N : Fin n → Arr) (s : Fin n) : Arr := fun i =>
  let Aex : Field := fun j => ((e (eosNbar g sites w N j)).map Prod.fst).getD 0
  let Aex_Nbar : Field := fun j => ((e (eosNbar g sites w N j)).map Prod.snd).getD 0
  (wMul w (Idag g.S fun j => eosNavg g sites N j * Aex_Nbar j) i + Idag g.S Aex i) * ((sites s).alpha / alphaTot sites : ℝ)

end

/-- Lines 75-82 `Fex_ScalarEOS::computeUniform`: the energy density, and what is added to `Phi_N[0]`. `N0` is the density of the first site, `mult0` its multiplicity. -/
def eosU (e : ℝ → Option (ℝ × ℝ)) (mult0 : Nat) (N0 : ℝ) : Option (ℝ × ℝ) :=
  let invN0mult := 1 / (mult0 : ℝ)
  let Navg := N0 * invN0mult
  (e Navg).map fun a => (Navg * a.1, (a.1 + Navg * a.2) * invN0mult)

/-! ### Quadratic functionals (Fex_LJ.cpp, Fex_H2O_BondedVoids.cpp) -/

section
variable (g : Grid)

/-- A kernel times a density, times the number of grid points (Fex_LJ.cpp:65, 99-100, 149-150, Fex_H2O_BondedVoids.cpp:47). -/
def kerV (c : ℝ) (w : Nat → ℝ) (N : Arr) : Arr := fun i => ((c * nr g.S : ℝ) : ℂ) * wMul w N i

/-- Fex_LJ.cpp:64-68 (with `c = 1`) and Fex_H2O_BondedVoids.cpp:46-50 (with `c = -kappa`): energy and gradient. -/
def selfE (c : ℝ) (w : Nat → ℝ) (N : Arr) : ℝ × Arr := (0.5 * g.dV * dotHalf g.S (kerV g c w N) N, kerV g c w N)

/-- Fex_LJ.cpp:95-104 (with `c = 1`) and 144-155 (with `c = Kmul`): energy and the gradients with respect to the two densities. -/
def mixE (c : ℝ) (w : Nat → ℝ) (N1 N2 : Arr) : ℝ × Arr × Arr := (g.dV * dotHalf g.S (kerV g c w N1) N2, kerV g c w N2, kerV g c w N1)

end

/-- Fex_LJ.cpp:69-72, Fex_H2O_BondedVoids.cpp:51-54. -/
def selfU (c : ℝ) (w : Nat → ℝ) (N : ℝ) : ℝ × ℝ := (0.5 * c * N * w 0 * N, c * w 0 * N)

/-- Fex_LJ.cpp:105-111, 135-142. -/
def mixU (c : ℝ) (w : Nat → ℝ) (N1 N2 : ℝ) : ℝ × ℝ × ℝ := (N1 * c * w 0 * N2, c * w 0 * N2, c * w 0 * N1)

/-! ### Fitted correlations (Fex_H2O_FittedCorrelations_internal.h, Fex_H2O_FittedCorrelations.cpp) -/

/-- Fex_H2O_FittedCorrelations.cpp:25-51: a sum of Gaussians. -/
def gaussians (l : List (ℝ × ℝ × ℝ)) (G : ℝ) : ℝ := (l.map fun a => a.1 * Real.exp (-(G - a.2.1) ^ 2 / a.2.2)).sum

/-- Lines 25-32 `COO_calc`. -/
def COO : List (ℝ × ℝ × ℝ) := [(-0.0271153, 1.0569, 0.0204818), (-0.0795576, 1.63853, 0.129513), (0.096648, 1.87815, 0.0736776), (-0.0291517, 2.46787, 0.0563636),
  (0.0227052, 3.10047, 0.0844132), (-0.0109078, 3.7162, 0.0452023)]
/-- Lines 34-41 `COH_calc`. -/
def COH : List (ℝ × ℝ × ℝ) := [(-0.00801259, 1.19859, 0.028028), (0.0379836, 1.72897, 0.117534), (-0.0380737, 2.15839, 0.213336), (0.0254576, 2.72112, 0.154157),
  (-0.00291329, 3.29894, 0.0265282), (0.00109967, 3.7659, 0.0315518)]
/-- Lines 43-50 `CHH_calc`. -/
def CHH : List (ℝ × ℝ × ℝ) := [(-0.013959, 1.88697, 0.104186), (0.0295776, 2.53164, 0.0869848)]
/-- Lines 52-55 `fex_gauss_calc`. -/
def fexGauss (G : ℝ) : ℝ := Real.exp (-(0.5 * 4.2027 * G) ^ 2)

/-- Lines 39-41 `fex`. -/
def fex (N : ℝ) : ℝ :=
  if N < 0 then 0 else 3.83929979127276e-18 + N * (-1.01124264551199e-10 + N * (8.87857550440045e-04 + N * (-2.59856289573731e+03 + N * (9.17183837107696e+05
    + N * (-1.27079357385654e+08 + N * 6.58720860464796e+09)))))

/-- Lines 42-44 `fexDot`. -/
def fexDot (N : ℝ) : ℝ :=
  if N < 0 then 0 else -1.01124264551199e-10 + N * (2 * 8.87857550440045e-04 + N * (3 * -2.59856289573731e+03 + N * (4 * 9.17183837107696e+05
    + N * (5 * -1.27079357385654e+08 + N * (6 * 6.58720860464796e+09)))))

/-- Lines 47-56 `Fex_H2O_FittedCorrelations_calc`: value, and the derivatives that are stored. -/
def fitted (NO NH : ℝ) : ℝ × ℝ × ℝ :=
  let Nmean := (1 / 3) * (NO + NH)
  let fDotMean := fexDot Nmean
  (27 / 20 * fex Nmean + -19 / 20 * fex NO + 12 / 20 * fex (NH * 0.5),
    (1 / 3) * (27 / 20) * fDotMean + -19 / 20 * fexDot NO,
    (1 / 3) * (27 / 20) * fDotMean + 12 / 20 * fexDot (NH * 0.5) * 0.5)

section
variable (g : Grid)

/-- Length of the reciprocal lattice vector of an element. -/
def gLen (i : Nat) : ℝ := Real.sqrt (dot3 (fun k => gvec g.G (hStart g.S i) k) fun k => gvec g.G (hStart g.S i) k)

/-- The weighted density of oxygen or hydrogen (Fex_H2O_FittedCorrelations.cpp:94-95). -/
def gaussBar (N : Arr) : Field := fftI g.S (wMul (fun i => fexGauss (gLen g i)) N)

/-- Line 89: `V_O`. -/
def VO (NO NH : Arr) : Arr := fun i => ((nr g.S : ℝ) : ℂ) * (wMul (fun i => gaussians COO (gLen g i)) NO i + wMul (fun i => gaussians COH (gLen g i)) NH i)
/-- Line 90: `V_H`. -/
def VH (NO NH : Arr) : Arr := fun i => ((nr g.S : ℝ) : ℂ) * (wMul (fun i => gaussians COH (gLen g i)) NO i + wMul (fun i => gaussians CHH (gLen g i)) NH i)

/-- Lines 86-111 `Fex_H2O_FittedCorrelations::compute`: the energy. -/
def fittedE (NO NH : Arr) : ℝ :=
  0.5 * g.dV * (dotHalf g.S (VO g NO NH) NO + dotHalf g.S (VH g NO NH) NH)
    + g.dV * ∑ j ∈ Finset.range (nr g.S), (fitted (gaussBar g NO j) (gaussBar g NH j)).1

/-- What is added to `Phi_Ntilde[0]`. -/
def fittedGradO (NO NH : Arr) : Arr := fun i => VO g NO NH i
  + wMul (fun i => fexGauss (gLen g i)) (Idag g.S fun j => (fitted (gaussBar g NO j) (gaussBar g NH j)).2.1) i
/-- What is added to `Phi_Ntilde[1]`. -/
def fittedGradH (NO NH : Arr) : Arr := fun i => VH g NO NH i
  + wMul (fun i => fexGauss (gLen g i)) (Idag g.S fun j => (fitted (gaussBar g NO j) (gaussBar g NH j)).2.2) i

end

/-- Lines 113-115 `Fex_H2O_FittedCorrelations::computeUniform`: energy density, and the new contents of `Phi_N`, given the old. -/
def fittedU (NO NH : ℝ) (_Phi_N : ℝ × ℝ) : ℝ × ℝ × ℝ := fitted NO NH

end
end Jdftx.Fluid
