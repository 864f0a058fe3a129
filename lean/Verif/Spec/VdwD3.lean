import Verif.Model.VdwD3
import Verif.Spec.Ewald
import Verif.Spec.WignerSeitz

/-!
# Specification for C106: DFT-D3 as published

Grimme, Antony, Ehrlich, Krieg, J. Chem. Phys. 132, 154104 (2010), and Grimme, Ehrlich, Goerigk, J. Comp. Chem. 32, 1456
(2011) for Becke-Johnson damping, without the three-body term.
-/
namespace Jdftx.D3
noncomputable section
open M3

/-- Neighbouring cells: the box of cells that reaches a distance `rc` along each lattice direction. -/
def neighbours {n : Nat} (p : Params n) (rc : ℝ) : Finset (Fin 3 → Int) :=
  Fintype.piFinset fun k => Finset.Icc (-((if p.trunc k then 0 else ⌈rc / Basis.length (column p.R k)⌉₊ : ℕ) : Int))
    ((if p.trunc k then 0 else ⌈rc / Basis.length (column p.R k)⌉₊ : ℕ) : Int)

variable {n : Nat}

/-- Distance between atom `a` in cell `v` and atom `b` in the home cell. -/
def distance (R : Mat ℝ) (pos : Fin n → V3 ℝ) (v : Fin 3 → Int) (a b : Fin n) : ℝ :=
  Real.sqrt (WS.lenSq R (fun k => (v k : ℝ) + (pos a k - pos b k)))

/-- Counting function of a neighbour at distance `r`, with the sum `R` of the scaled covalent radii. -/
def counting (R r : ℝ) : ℝ := 1 / (1 + Real.exp (-16 * (R / r - 1)))

open Classical in
/-- Fractional coordination number of an atom: all neighbours within 50 bohrs. -/
def coordination (p : Params n) (pos : Fin n → V3 ℝ) (a : Fin n) : ℝ :=
  ∑ b, ∑ v ∈ neighbours p 50, if distance p.R pos v a b = 0 ∨ 50 < distance p.R pos v a b then 0
    else counting ((p.atom a).k2Rcov + (p.atom b).k2Rcov) (distance p.R pos v a b)

/-- Normalised weight of the reference with coordination number `c` for an atom with coordination number `x`. -/
def weight (CN : List ℝ) (x c : ℝ) : ℝ := Real.exp (-4 * (x - c) ^ 2) / (CN.map fun c' => Real.exp (-4 * (x - c') ^ 2)).sum

/-- Interpolated dispersion coefficient: average of the coefficients of all pairs of reference systems. -/
def C6interp (T : Tables) (a1 a2 : AtomParams) (x1 x2 : ℝ) : ℝ :=
  ((a1.iCN.zip a1.CN).map fun r1 => ((a2.iCN.zip a2.CN).map fun r2 =>
    weight a1.CN x1 r1.2 * weight a2.CN x2 r2.2 * T.coeff (pairIndex r1.1 r2.1)).sum).sum

/-- Damped power law of order `m`: zero damping (exponent `m + 8`) or Becke-Johnson damping. `R0` is the radius of the pair
of elements for zero damping and the square root of the ratio of the coefficients for Becke-Johnson damping. -/
def damped (p : Params n) (m : Nat) (R0 r : ℝ) : ℝ :=
  if p.dampBJ then 1 / (r ^ m + (p.sr6 * R0 + p.sr8) ^ m)
  else 1 / r ^ m / (1 + 6 * ((if m = 6 then p.sr6 else p.sr8) * R0 / r) ^ (m + 8))

/-- Ratio of the coefficients of eighth and sixth order. -/
def ratio (p : Params n) (a b : Fin n) : ℝ := 3 * (p.atom a).sqrtQ * (p.atom b).sqrtQ

/-- Radius of a pair of elements: the table lists, for each element in turn, its pairs with all elements up to itself; so the pairs of all lighter elements come first. -/
def pairRadius (T : Tables) (a1 a2 : AtomParams) : ℝ :=
  T.R0_Angstrom ((∑ z ∈ Finset.range (max a1.Z a2.Z).toNat, z) + ((min a1.Z a2.Z).toNat - 1)) * T.angstrom

/-- Damping radius. -/
def radius (p : Params n) (a b : Fin n) : ℝ :=
  if p.dampBJ then Real.sqrt (ratio p a b) else pairRadius p.T (p.atom a) (p.atom b)

open Classical in
/-- The dispersion energy: every pair of atoms once (half of the sum over ordered pairs), images of the first atom in the
neighbouring cells and within the cutoff, an atom with itself excluded. -/
def total (p : Params n) (pos : Fin n → V3 ℝ) : ℝ :=
  -(1 / 2) * ∑ a, ∑ b, ∑ v ∈ neighbours p (rCut p),
    if distance p.R pos v a b = 0 ∨ rCut p < distance p.R pos v a b then 0
    else C6interp p.T (p.atom a) (p.atom b) (coordination p pos a) (coordination p pos b) *
      (p.s6 * damped p 6 (radius p a b) (distance p.R pos v a b)
        + p.s8 * ratio p a b * damped p 8 (radius p a b) (distance p.R pos v a b))

/-- Parameters as the constructor sets them up, from tables with positive coefficients and at least one reference for every
element in use. -/
structure Valid (p : Params n) : Prop where
  atoms : ∀ a, ∃ Z, getAtomParams p.T Z = .ok (p.atom a)
  refs : ∀ a, (p.atom a).CN ≠ []
  coeff : ∀ k, 0 < p.T.coeff k
  sqrtQ : ∀ a, 0 < (p.atom a).sqrtQ
  cut : 0 ≤ p.lj

/-- No pair of atoms is exactly at one of the two cutoffs, and no atom exactly at the coordination number at which the
interpolation is replaced by the reference of largest coordination. -/
def OffThreshold (p : Params n) (pos : Fin n → V3 ℝ) : Prop :=
  (∀ a b, ∀ v : Fin 3 → Int, distance p.R pos v a b ≠ rCut p ∧ distance p.R pos v a b ≠ 50) ∧
  ∀ a, ((p.atom a).CN.map fun c => Real.exp (-4 * (coordination p pos a - c) ^ 2)).sum ≠ ((10 : ℝ) ^ 40)⁻¹

end
end Jdftx.D3
