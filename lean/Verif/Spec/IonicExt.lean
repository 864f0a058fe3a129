import Verif.Model.IonicExt
import Verif.Spec.Ewald

/-!
# Specification for C104: external potentials on ions
-/
namespace Jdftx.IonExt
noncomputable section
open M3 Real

variable {n : ℕ}

/-- The atoms with one of them displaced. -/
def moved (atoms : Fin n → Atom) (a : Fin n) (u : V3 ℝ) (t : ℝ) : Fin n → Atom := fun b => { atoms b with pos := Ewald.displace (fun b => (atoms b).pos) a u t b }

/-- The coordinates are not on a face of the cell around the origin. -/
def Inside (x : V3 ℝ) : Prop := ∀ k, ∀ m : ℤ, x k ≠ m + 1 / 2

/-- Squared distance of a point at `r` from the origin, from the line along the third axis, or from the plane across it. -/
def fromCenter (r : V3 ℝ) : Geometry → ℝ
  | .spherical => r 0 ^ 2 + r 1 ^ 2 + r 2 ^ 2
  | .cylindrical => r 0 ^ 2 + r 1 ^ 2
  | .planar => r 2 ^ 2

/-- Squared distance in the lattice `R` between points with the coordinates `x` and `y`. -/
def distSq (R : Mat ℝ) (x y : V3 ℝ) : ℝ := dot (mulMV R fun k => x k - y k) (mulMV R fun k => x k - y k)

/-- Number of atoms of a species before atom `i`. -/
def countBefore (atoms : Fin n → Atom) (iSp : ℕ) (i : ℕ) : ℕ := ((List.finRange n).take i).countP fun j => decide ((atoms j).sp = iSp)

/-- Piecewise linear function with values on a grid. -/
structure PiecewiseLinear (res : ℝ) (pot : List ℝ) (f : ℝ → ℝ) : Prop where
  value : ∀ i (h : i < pot.length), f (i * res) = pot[i]
  between : ∀ i, i + 1 < pot.length → ∀ t, 0 ≤ t → t ≤ 1 → f ((i + t) * res) = (1 - t) * f (i * res) + t * f ((i + 1) * res)

/-- Gaussian with width `resolution` around `len` and integral `energyPerStep`. -/
def kernel (b : Bond) (len r : ℝ) : ℝ := b.energyPerStep / (b.resolution * sqrt (2 * π)) * exp (-(r - len) ^ 2 / (2 * b.resolution ^ 2))

/-- The potential after a series of updates at the given bond lengths, by the function of the code. -/
def history (b : Bond) : List ℝ → List ℝ → Res (List ℝ)
  | pot, [] => .ok pot
  | pot, len :: l => match minSize b.resolution len with
    | .error e => .error e
    | .ok m => history b (deposit b len 0 (pad pot m)) l

end
end Jdftx.IonExt
