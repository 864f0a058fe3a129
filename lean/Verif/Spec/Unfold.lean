import Verif.Model.Unfold
/-!
# Specification of band unfolding
-/
namespace Jdftx.Unfold
open Jdftx.M3

/-- Two points differ by a reciprocal lattice vector. -/
def SameMod (p q : V3 ℝ) : Prop := ∃ t : V3 ℤ, ∀ d, p d = q d + (t d : ℝ)

/-- Plane wave `iG` at supercell k-point `k` has wavevector `p + t` in the unit cell, for an integer vector `t`; in supercell
coordinates this is `(p + t) M = k + iG`. -/
def BelongsTo (M : Mat ℤ) (k : V3 ℝ) (iG : V3 ℤ) (p : V3 ℝ) : Prop :=
  ∃ t : V3 ℤ, ∀ j, (p 0 + t 0) * M 0 j + (p 1 + t 1) * M 1 j + (p 2 + t 2) * M 2 j = k j + iG j

end Jdftx.Unfold
