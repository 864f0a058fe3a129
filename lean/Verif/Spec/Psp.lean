import Verif.Model.Psp
import Verif.Spec.Ewald
import Mathlib.Analysis.Calculus.Deriv.Basic
import Mathlib.Analysis.Complex.Basic
import Mathlib.LinearAlgebra.Matrix.Hermitian

/-!
# Specification for C102: forces and stresses due to pseudopotentials
-/
namespace Jdftx.Psp
noncomputable section
open M3 Real
open scoped Matrix

/-- Inner product of gradients with a change of the fields. -/
def Grads.pair (S : Box.Size) (g : Grads) (δ : Fields) : ℝ :=
  Box.dotHalf S g.V δ.V + (match g.rho with | some r => Box.dotHalf S r δ.rho | none => 0) + (match g.cb with | some r => Box.dotHalf S r δ.cb | none => 0)
    + Box.dotHalf S g.nc δ.nc + (match g.tau with | some r => Box.dotHalf S r δ.tau | none => 0)

/-- Fields that depend on a parameter, with their derivative at zero. -/
structure FieldDeriv (γ : ℝ → Fields) (δ : Fields) : Prop where
  V : ∀ i, HasDerivAt (fun t => (γ t).V i) (δ.V i) 0
  rho : ∀ i, HasDerivAt (fun t => (γ t).rho i) (δ.rho i) 0
  cb : ∀ i, HasDerivAt (fun t => (γ t).cb i) (δ.cb i) 0
  nc : ∀ i, HasDerivAt (fun t => (γ t).nc i) (δ.nc i) 0
  tau : ∀ i, HasDerivAt (fun t => (γ t).tau i) (δ.tau i) 0

/-- `g` is the gradient of the energy `E` at the fields `f`: the energy changes by the volume times the inner product. -/
def IsGradient (S : Box.Size) (vol : ℝ) (E : Fields → ℝ) (f : Fields) (g : Grads) : Prop :=
  ∀ γ δ, γ 0 = f → FieldDeriv γ δ → HasDerivAt (fun t => E (γ t)) (vol * g.pair S δ) 0

/-- No fields. -/
def noFields : Fields := ⟨0, 0, 0, 0, 0⟩

/-- The radial functions have the derivatives that they are said to have, except possibly at zero. -/
structure Local.OK (sp : Local) : Prop where
  V : ∀ x, x ≠ 0 → HasDerivAt sp.Vloc (sp.dVloc x) x
  core : ∀ x, x ≠ 0 → HasDerivAt sp.nCore (sp.dnCore x) x
  tau : ∀ x, x ≠ 0 → HasDerivAt sp.tauCore (sp.dtauCore x) x

/-- The functions of a projector have the derivatives that they are said to have: the radial function except possibly at zero, the harmonic along every differentiable curve through a
point of the unit sphere. -/
structure Proj.OK (p : Proj) : Prop where
  V : ∀ x, x ≠ 0 → HasDerivAt p.V (p.dV x) x
  Y : ∀ (q : ℝ → V3 ℝ) (q' : V3 ℝ), dot (q 0) (q 0) = 1 → (∀ k, HasDerivAt (fun t => q t k) (q' k) 0) → HasDerivAt (fun t => p.Y (q t)) (dot (p.dY (q 0)) q') 0

variable {np nb nG n : ℕ}

/-- Projectors with derivatives, Hermitian matrices. -/
structure Nonlocal.OK (c : Nonlocal np nb nG) : Prop where
  proj : ∀ p, (c.proj p).OK
  M : c.M.IsHermitian
  Q : ∀ Q, c.Q = some Q → Q.IsHermitian
  overlap : c.gradOverlap.IsHermitian

/-- Projections of the wavefunctions on the projectors of an atom at `x`: inner products of plane-wave coefficients. -/
def projections (c : Nonlocal np nb nG) (G : Mat ℝ) (x : V3 ℝ) : Matrix (Fin np) (Fin nb) ℂ :=
  Matrix.of fun p b => ∑ i, (starRingEnd ℂ (vnl c G x i p)) * c.C i b

/-- Nonlocal energy of the state with its weight, with the constraint of orthonormality of the bands: the gradient with respect to overlaps times the part of the overlap that depends
on the atoms. -/
def energy (c : Nonlocal np nb nG) (G : Mat ℝ) (pos : Fin n → V3 ℝ) : ℝ :=
  c.w * (enl c (fun a => projections c G (pos a)) + ∑ a, (match c.Q with
    | some Q => (Matrix.trace (c.gradOverlap * ((projections c G (pos a))ᴴ * Q * projections c G (pos a)))).re
    | none => 0))

/-- Orthogonal matrices. -/
def Orth (U : Mat ℝ) : Prop := mulMM (M3.transpose U) U = diag 1 1 1

/-- Rotational symmetry of a set of projectors with a matrix. -/
def RotInv (proj : Fin np → Proj) (M : Matrix (Fin np) (Fin np) ℂ) : Prop :=
  ∀ U, Orth U → ∀ q q', ∑ p, ∑ p', (prefac (proj p) (mulMV U q) : ℂ) * M p p' * (prefac (proj p') (mulMV U q') : ℂ) = ∑ p, ∑ p', (prefac (proj p) q : ℂ) * M p p' * (prefac (proj p') q' : ℂ)

/-- What a history of events returns. -/
def outputs {P L K D W : Type} (compute : P → L → K → Option D → Int → W) (useCache : Bool) : Cache P L K W → List (Op P L K D) → List (Option W)
  | _, [] => []
  | s, op :: ops => (opStep compute useCache s op).2 :: outputs compute useCache (opStep compute useCache s op).1 ops

/-- What it should return: projectors calculated for the current positions and lattice. -/
def expected {P L K D W : Type} (compute : P → L → K → Option D → Int → W) : P → L → List (Op P L K D) → List (Option W)
  | _, _, [] => []
  | _, R, .move pos :: ops => none :: expected compute pos R ops
  | pos, _, .lattice R :: ops => none :: expected compute pos R ops
  | pos, R, .update :: ops => none :: expected compute pos R ops
  | pos, R, .getV k d sd :: ops => some (compute pos R k d sd) :: expected compute pos R ops

/-- Projectors are only requested when an update has followed the last change of the lattice; `b`: it has. -/
def Updated {P L K D : Type} : Bool → List (Op P L K D) → Prop
  | _, [] => True
  | b, .move _ :: ops => Updated b ops
  | _, .lattice _ :: ops => Updated false ops
  | _, .update :: ops => Updated true ops
  | b, .getV _ _ _ :: ops => b = true ∧ Updated b ops

end
end Jdftx.Psp
