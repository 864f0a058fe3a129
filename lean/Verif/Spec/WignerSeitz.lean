import Verif.Model.Mat3
import Mathlib.Analysis.Real.Sqrt

/-!
# Specification for C28, C29
-/
namespace Jdftx.WS
open Jdftx.M3

/-- Squared Cartesian length of a point in lattice coordinates. -/
def lenSq (R : Mat ℝ) (x : V3 ℝ) : ℝ := dot (mulMV R x) (mulMV R x)

/-- `x` and `y` differ by a lattice vector. -/
def Equivalent (x y : V3 ℝ) : Prop := ∃ n : V3 Int, ∀ i, y i = x i + (n i : ℝ)

/-- `y` is not farther from the origin than from the lattice points `a` and `-a`, up to `tol` times twice the squared
length of `a`: it is on the inner side of the two faces bisecting the origin and `±a`. -/
def Inside (R : Mat ℝ) (tol : ℝ) (y : V3 ℝ) (a : V3 Int) : Prop :=
  lenSq R y ≤ lenSq R (fun i => y i - (a i : ℝ)) + 2 * tol * lenSq R (fun i => (a i : ℝ)) ∧
  lenSq R y ≤ lenSq R (fun i => y i + (a i : ℝ)) + 2 * tol * lenSq R (fun i => (a i : ℝ))

/-- `y` is at distance `r` or more from every point of the plane equidistant from the origin and the lattice point `a`. -/
def PlaneAtLeast (R : Mat ℝ) (a : V3 Int) (y : V3 ℝ) (r : ℝ) : Prop :=
  ∀ z : V3 ℝ, lenSq R z = lenSq R (fun i => z i - (a i : ℝ)) → r ^ 2 ≤ lenSq R (fun i => z i - y i)

end Jdftx.WS
