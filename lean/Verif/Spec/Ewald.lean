import Verif.Model.Mat3
import Mathlib.Data.Real.Basic
import Mathlib.Algebra.BigOperators.Fin

/-!
# Specification for C70
-/
namespace Jdftx.Ewald
open M3

/-- The positions with atom `c` moved by `t` times `u` (lattice coordinates). -/
def displace {n : Nat} (pos : Fin n → V3 ℝ) (c : Fin n) (u : V3 ℝ) (t : ℝ) : Fin n → V3 ℝ := fun a k =>
  if a = c then pos a k + t * u k else pos a k

/-- The lattice vectors under a strain `t` times `e`: every Cartesian point `r` moves to `r + t e r`. -/
def strained (R e : Mat ℝ) (t : ℝ) : Mat ℝ := fun i j => R i j + t * (e i 0 * R 0 j + e i 1 * R 1 j + e i 2 * R 2 j)

/-- No two atoms coincide, also not with periodic images. -/
def Apart {n : Nat} (pos : Fin n → V3 ℝ) : Prop := ∀ a b, a ≠ b → ∀ m : Fin 3 → Int, ∃ k, pos a k ≠ pos b k + (m k : ℝ)

/-- No coordinate is a half-integer: no atom is on the surface of the unit cell centred on the origin. -/
def OffBoundary {n : Nat} (pos : Fin n → V3 ℝ) : Prop := ∀ a k, ∀ m : Int, pos a k ≠ (m : ℝ) + 1 / 2

/-- Sum of products of entries. -/
def contract (s e : Mat ℝ) : ℝ := ∑ i, ∑ j, s i j * e i j

end Jdftx.Ewald
