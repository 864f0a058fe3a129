import Verif.Model.Mat3
import Mathlib.Analysis.Real.Sqrt
import Mathlib.Algebra.BigOperators.Fin

/-!
# Specification for C26, C27
-/
namespace Jdftx.Lat
open Jdftx.M3

/-- `v` is an integer combination of the columns of `R`. -/
def InLattice {K : Type} [CommRing K] (R : Mat K) (v : V3 K) : Prop := ∃ n : V3 Int, v = mulMV R (fun i => (n i : K))

/-- Adding `i` times column `k+1` and `j` times column `k+2` to column `k` (indices mod 3), leaving the others alone. -/
def addCols {K : Type} [CommRing K] (R : Mat K) (k : Fin 3) (i j : Int) : Mat K :=
  fun a b => if b = k then R a k + (i : K) * R a (k + 1) + (j : K) * R a (k + 2) else R a b

/-- Sum of the squares of all entries. -/
def sumSq {K : Type} [CommRing K] (R : Mat K) : K := ∑ a, ∑ b, R a b ^ 2

/-- An integer matrix acting on lattice coordinates is an isometry of the lattice with vectors `R`: it keeps all inner
products. -/
def Isometry (R : Mat ℝ) (m : Mat Int) : Prop :=
  ∀ v w : V3 ℝ, dot (mulMV R (mulMV (castMat m) v)) (mulMV R (mulMV (castMat m) w)) = dot (mulMV R v) (mulMV R w)

/-- No truncated coordinate is mapped to a periodic one or the other way. -/
def RespectsTruncation (tr : Fin 3 → Bool) (m : Mat Int) : Prop := ∀ i j, m i j ≠ 0 → tr i = tr j

/-- Root of the summed squared changes of the inner products of the vectors `R` when the integer matrix `m` acts on them. -/
noncomputable def metricChange (R : Mat ℝ) (m : Mat Int) : ℝ :=
  Real.sqrt (∑ a, ∑ b, (dot (column R a) (column R b)
    - dot (column (mulMM R (castMat m)) a) (column (mulMM R (castMat m)) b)) ^ 2)

/-- Root of the summed squared inner products of the vectors `R`. -/
noncomputable def metricSize (R : Mat ℝ) : ℝ := Real.sqrt (∑ a, ∑ b, dot (column R a) (column R b) ^ 2)

end Jdftx.Lat
