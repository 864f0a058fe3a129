import Verif.Model.SCF
import Verif.Spec.SpinDiag
import Verif.Spec.Box

/-!
# Specification for C107: mixing in the self-consistent field method
-/
namespace Jdftx.SCF
open Box ExCorr
noncomputable section

variable (g : Grid) (p : Params) {m : Mode} {nRho : ℕ}

/-- The grid and the reciprocal lattice are valid. -/
structure GridValid : Prop where
  pos : g.S.Pos
  vol : 0 < g.dV
  indep : ∀ x y z : ℝ, (∀ k, x * g.G 0 k + y * g.G 1 k + z * g.G 2 k = 0) → x = 0 ∧ y = 0 ∧ z = 0

/-- Mixing fractions are positive and the squared inverse screening length of the fluid is not negative. -/
structure ParamsValid : Prop where
  mix : 0 < p.mixFraction
  mag : 0 < p.mixFractionMag
  kappa : 0 ≤ kappaSq p

/-- Two variables have the same content: the same values on the grid in what is mixed. -/
def Same (x y : Var m nRho) : Prop :=
  (∀ s, ∀ j < nr g.S, x.1 s j = y.1 s j) ∧ (p.mixTau = true → ∀ s, ∀ j < nr g.S, x.2.1 s j = y.2.1 s j) ∧ (p.hasU = true → ∀ i, x.2.2 i = y.2.2 i)

/-- Number of electrons in the density of a mixed variable. -/
def electrons (v : Var m nRho) : ℝ := g.dV * ∑ j ∈ Finset.range (nr g.S), (match m with
  | .unpolarized => fun n : Fin 1 → Field => n 0 j
  | .polarized => fun n : Fin 2 → Field => n 0 j + n 1 j
  | .noncollinear => fun n : Fin 4 → Field => n 0 j + n 1 j : (Fin (nIn m) → Field) → ℝ) (toSpin m v.1)

/-- Squared size of a residual, by the metric of the mixing. -/
def size (v : Var m nRho) : ℝ := dot g p v (applyMetric g p v)

/-- Combination of the residuals. -/
def combine (l : List (Var m nRho)) (a : Fin l.length → ℝ) : Var m nRho := ∑ j, a j • l.get j

/-- Matrix of a local potential acting on spinors, from its four components (ColumnBundleOperators.cpp:211-231). -/
def potentialMatrix (x : SpinDiag.Spin4) : Matrix (Fin 2) (Fin 2) ℂ :=
  !![(x 0 : ℂ), 0.5 * (x 2 + x 3 * Complex.I); 0.5 * (x 2 - x 3 * Complex.I), x 1]

/-- The four spin components at a point. -/
def spinAt (n : Fin 4 → Field) (j : ℕ) : SpinDiag.Spin4 := ![n 0 j, n 1 j, n 2 j, n 3 j]

/-- Densities after a rotation of the spin axes. -/
def RotatedVar (U : Matrix (Fin 2) (Fin 2) ℂ) (x y : Var .noncollinear nRho) : Prop :=
  (∀ j < nr g.S, SpinDiag.Rotated U (spinAt (toSpin .noncollinear x.1) j) (spinAt (toSpin .noncollinear y.1) j)) ∧
    ∀ j < nr g.S, SpinDiag.Rotated U (spinAt (toSpin .noncollinear x.2.1) j) (spinAt (toSpin .noncollinear y.2.1) j)

end
end Jdftx.SCF
