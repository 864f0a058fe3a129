import Verif.Model.Basis
import Verif.Model.Outcome
import Mathlib.Algebra.Order.Archimedean.Real.Basic
/-!
# Model of the list of unit-cell k-points in band unfolding (jdftx/electronic/DumpExcitationsMoments.cpp, `Dump::dumpUnfold`)

Reals are exact, and the look-up of a k-point compares exactly up to reciprocal lattice vectors (the look-up table with its
tolerance is modelled in `Verif.Model.PeriodicLookup`). The order given by the sort in line 595 is not modelled.
-/
namespace Jdftx.Unfold
open Jdftx.M3
noncomputable section
open Classical

/-- DumpExcitationsMoments.cpp:588: wrap to `(-1/2, 1/2]`. -/
def wrap (x : ℝ) : ℝ := x - (⌈-(1 / 2) + x⌉ : ℝ)

/-- DumpExcitationsMoments.cpp:574, 587-588: k-point of the unit cell that plane wave `iG` at supercell k-point `k` belongs to. -/
def unitK (M : Mat ℤ) (k : V3 ℝ) (iG : V3 ℤ) : V3 ℝ :=
  fun d => wrap (mulVM (fun c => k c + (iG c : ℝ)) (Basis.inv (castMat M)) d)

/-- DumpExcitationsMoments.cpp:589: a k-point in the list differs from `k` by a reciprocal lattice vector. -/
def known (l : List (V3 ℝ)) (k : V3 ℝ) : Prop := ∃ p ∈ l, ∃ t : V3 ℤ, ∀ d, k d = p d + (t d : ℝ)

/-- DumpExcitationsMoments.cpp:575: `nUnits` -/
def nUnits (M : Mat ℤ) : ℕ := (det M).natAbs

/-- DumpExcitationsMoments.cpp:586-594: the loop over plane waves, which ends as soon as the list is full. -/
def collect (M : Mat ℤ) (k : V3 ℝ) : List (V3 ℤ) → List (V3 ℝ) → List (V3 ℝ)
  | [], l => l
  | iG :: rest, l =>
    if known l (unitK M k iG) then collect M k rest l
    else
      let l' := l ++ [unitK M k iG]
      if l'.length = nUnits M then l' else collect M k rest l'

/-- DumpExcitationsMoments.cpp:583-596: the list for one supercell k-point. -/
def kUnit (M : Mat ℤ) (k : V3 ℝ) (basis : List (V3 ℤ)) : List (V3 ℝ) := collect M k basis []

/-- DumpExcitationsMoments.cpp:618-639: the weights of one supercell k-point, one per unit-cell k-point and band. -/
def unitWeights (M : Mat ℤ) (k : V3 ℝ) (basis : List (V3 ℤ)) (nBands : ℕ) (w : V3 ℝ → ℕ → ℝ) : List ℝ :=
  (kUnit M k basis).flatMap fun p => (List.range nBands).map (w p)

/-- ElecInfo.cpp:553-571 with DumpExcitationsMoments.cpp:641: `nUnits*nBands` numbers are written from the array; reading
beyond its end is undefined behaviour. -/
def writeWeights (M : Mat ℤ) (nBands : ℕ) (data : List ℝ) : Res (List ℝ) :=
  if data.length < nUnits M * nBands then .error .ub else .ok (data.take (nUnits M * nBands))

end
end Jdftx.Unfold
