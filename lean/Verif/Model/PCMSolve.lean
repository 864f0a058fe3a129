import Verif.Model.NonlinearPCM
import Verif.Model.BoxField

/-!
# Model of the electrostatics of the continuum solvation models
(jdftx/fluid/LinearPCM.cpp:37-158, NonlinearPCM.cpp:176-309, PCM.h:78, core/Operators.cpp:243-262)

Exact arithmetic; grids and Fourier transforms as in `Model.ExCorr`, the inner product `dot` as in `Model.BoxField`. The shape functions are an
array of `n` fields (`n` is 1, or 2 with a separate ionic cavity); `shape.back()` is number `n-1`. Stresses, the propagation of gradients from shape functions to
densities (C76, C77, C79), cavitation and dispersion energies and `epsilonOverride` (used only to evaluate `hessian` for other callers) are not modelled.
-/
namespace Jdftx.PCM
open Box ExCorr Cavity
noncomputable section

variable (g : Grid)

/-- Operators.cpp: `O`. -/
def opO (X : Arr) : Arr := fun i => (g.detR : ℂ) * X i

/-- Squared reciprocal lattice vector of element `i`. -/
def Gsq (i : Nat) : ℝ := ∑ k, gvec g.G (hStart g.S i) k ^ 2

/-- Operators.cpp:243-262 `Linv`. -/
def opLinv (X : Arr) : Arr := fun i => if i = 0 then 0 else ((-1 / g.detR : ℝ) : ℂ) * X i / (Gsq g i.toNat : ℂ)

/-- PCM.h:78 `coulomb`. -/
def coulomb (rho : Arr) : Arr := fun i => ((-4 * Real.pi : ℝ) : ℂ) * opLinv g (opO g rho) i

/-- Operators.cpp `integral(ScalarField)`. -/
def integral (f : Field) : ℝ := g.dV * ∑ j ∈ Finset.range (nr g.S), f j

/-! ### Linear response -/

/-- FluidSolverParams, PCM: `epsBulk`, `k2factor`, `epsBulkTensor` (zero selects isotropic response). -/
structure Linear where
  epsBulk : ℝ
  k2factor : ℝ
  epsTensor : Fin 3 → ℝ

/-- LinearPCM.cpp:40, 126: `epsBulkTensor.length_squared()` is not zero. -/
def Linear.aniso (p : Linear) : Prop := dot3 p.epsTensor p.epsTensor ≠ 0

open Classical in
/-- LinearPCM.cpp:41, 45: `epsilon` for direction `k`. -/
def Linear.epsilon (p : Linear) (k : Fin 3) (s : ℝ) : ℝ :=
  if p.aniso then 1 + (-1 + p.epsTensor k) * s else 1 + (p.epsBulk - 1) * s

/-- LinearPCM.cpp:37-53 `hessian`. -/
def Linear.hessian (p : Linear) (shape0 shapeBack : Field) (phi : Arr) : Arr := fun i =>
  let diel := divergence g.S g.G (fun k => fftJ g.S fun j => p.epsilon k (shape0 j) * gradPhi g phi k j) i
  let rho := if p.k2factor ≠ 0 then diel - fftJ g.S (fun j => p.k2factor * shapeBack j * fftI g.S phi j) i else diel
  ((-1 / (4 * Real.pi) : ℝ) : ℂ) * rho

/-- LinearPCM.cpp:58-60 `precondition`, for the values `K` of `Kkernel` at the reciprocal lattice vectors. -/
def precondition (K : Nat → ℝ) (epsInv : Field) (r : Arr) : Arr := wMul K (fftJ g.S fun j => epsInv j * fftI g.S (wMul K r) j)

/-- LinearPCM.cpp:115-117: the electrostatic energy. -/
def Linear.adiel (p : Linear) (n : Nat) (shape : Nat → Field) (phi rho : Arr) : ℝ :=
  -0.5 * dotHalf g.S phi (opO g (p.hessian g (shape 0) (shape (n - 1)) phi))
    + dotHalf g.S (fun i => phi i - (0.5 : ℝ) * coulomb g rho i) (opO g rho)

/-- LinearPCM.cpp:120: `Adiel_rhoExplicitTilde`. -/
def adiel_rho (phi rho : Arr) : Arr := fun i => phi i - coulomb g rho i

open Classical in
/-- LinearPCM.cpp:123-134: `Adiel_shape[i]`. -/
def Linear.adiel_shape (p : Linear) (n : Nat) (phi : Arr) (i : Nat) : Field := fun j =>
  (if i = 0 then
    (if p.aniso then
      (-1 / (8 * Real.pi)) * (-1 + p.epsTensor 0) * gradPhi g phi 0 j * gradPhi g phi 0 j
        + (-1 / (8 * Real.pi)) * (-1 + p.epsTensor 1) * gradPhi g phi 1 j * gradPhi g phi 1 j
        + (-1 / (8 * Real.pi)) * (-1 + p.epsTensor 2) * gradPhi g phi 2 j * gradPhi g phi 2 j
    else (-(p.epsBulk - 1) / (8 * Real.pi)) * dot3 (fun k => gradPhi g phi k j) fun k => gradPhi g phi k j)
  else 0)
  - (if i = n - 1 ∧ p.k2factor ≠ 0 then p.k2factor / (8 * Real.pi) * (fftI g.S phi j) ^ 2 else 0)

/-! ### Nonlinear response -/

/-- The response of the fluid at a point. `Fd`, `Fd'` are the dipole energy and its derivative as functions of the field (`C80_dielectric`
relates them to `Dielectric::apply_calc`), `Fi`, `Fi'` the ionic energy and its derivative as functions of the potential (`C80_screening`); `ions` tells whether `screeningEval` exists.
`w1` and `Nw0` are the nonlocal kernels by their values at the reciprocal lattice vectors, for the nonlocal model (NonlinearPCM.cpp:112-113, 133-148). -/
structure Response where
  Fd : (Fin 3 → ℝ) → ℝ
  Fd' : (Fin 3 → ℝ) → Fin 3 → ℝ
  ions : Bool
  Fi : ℝ → ℝ
  Fi' : ℝ → ℝ
  kernels : Option ((Nat → ℝ) × (Nat → ℝ))

namespace Response
variable (r : Response)

/-- NonlinearPCM.cpp:188, 203, 254: `w1 ? w1*X : X`. -/
def w1 (X : Arr) : Arr := match r.kernels with
  | some (w, _) => wMul w X
  | none => X

/-- NonlinearPCM.cpp:232-236: `rhoLiquidTilde0` (absent counts as zero). -/
def rhoLiquid (shape0 : Field) : Arr := match r.kernels with
  | some (_, Nw0) => wMul Nw0 (fftJ g.S shape0)
  | none => fun _ => 0

/-- NonlinearPCM.cpp:188, 254: the field at a point. -/
def Dphi (phi : Arr) (j : Nat) : Fin 3 → ℝ := fun k => gradPhi g (r.w1 phi) k j

/-- NonlinearPCM.cpp:187-198: `A`. -/
def A (shape0 shapeBack : Field) (phi : Arr) : Field := fun j =>
  shape0 j * r.Fd (r.Dphi g phi j) + (if r.ions then shapeBack j * r.Fi (fftI g.S phi j) else 0)

/-- NonlinearPCM.cpp:183. -/
def KinvPhi (phi : Arr) : Arr := fun i => opL g phi i * ((-1 / (4 * Real.pi * g.detR) : ℝ) : ℂ)

/-- NonlinearPCM.cpp:180-216 `compute`: the returned value. -/
def compute (A0 : ℝ) (n : Nat) (shape : Nat → Field) (rho phi : Arr) : ℝ :=
  A0 + 0.5 * dotHalf g.S (KinvPhi g phi) (opO g phi) + integral g (r.A g (shape 0) (shape (n - 1)) phi)
    - dotHalf g.S (fun i => rho i + r.rhoLiquid g (shape 0) i) (opO g phi)

/-- NonlinearPCM.cpp:204-209 `compute`: the gradient. -/
def grad (n : Nat) (shape : Nat → Field) (rho phi : Arr) : Arr := opO g fun i =>
  let A_phi := r.w1 (fun i => -divergence g.S g.G (fun k => fftJ g.S fun j => shape 0 j * r.Fd' (r.Dphi g phi j) k) i) i
  let A_phi := if r.ions then A_phi + fftJ g.S (fun j => shape (n - 1) j * r.Fi' (fftI g.S phi j)) i else A_phi
  (A_phi + KinvPhi g phi i) - (rho i + r.rhoLiquid g (shape 0) i)

/-- NonlinearPCM.cpp:249, 266-275: the electrostatic energy. -/
def adiel (n : Nat) (shape : Nat → Field) (rho phi : Arr) : ℝ :=
  dotHalf g.S phi (opL g phi) * (1 / (8 * Real.pi)) - integral g (r.A g (shape 0) (shape (n - 1)) phi)
    + dotHalf g.S phi (opO g fun i => rho i + r.rhoLiquid g (shape 0) i) - 0.5 * dotHalf g.S (coulomb g rho) (opO g rho)
    - (if r.kernels.isSome then 0.5 * dotHalf g.S (coulomb g (r.rhoLiquid g (shape 0))) (opO g (r.rhoLiquid g (shape 0))) else 0)

/-- NonlinearPCM.cpp:283-287: `Adiel_shape[i]`. -/
def adiel_shape (n : Nat) (shape : Nat → Field) (phi : Arr) (i : Nat) : Field := fun j =>
  -((if i = 0 then r.Fd (r.Dphi g phi j) else 0) + (if i = n - 1 ∧ r.ions then r.Fi (fftI g.S phi j) else 0))
  + (match r.kernels with
    | some (_, Nw0) => if i = 0 then fftI g.S (wMul Nw0 fun i => phi i - coulomb g (r.rhoLiquid g (shape 0)) i) j else 0
    | none => 0)

end Response
end
end Jdftx.PCM
