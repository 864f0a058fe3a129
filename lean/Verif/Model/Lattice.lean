import Verif.Model.Mat3
import Verif.Model.Outcome
import Mathlib.Analysis.Real.Sqrt

/-!
# Model of lattice reduction and lattice symmetries (jdftx/core/LatticeUtils.cpp)

Real arithmetic is exact. Scalars of `reduceMatrix` are elements of a commutative ring with a map to the reals, to cover its
two instances `matrix3<double>` and `matrix3<int>`.
-/
namespace Jdftx.Lat
open Jdftx.M3
noncomputable section
open Classical

/-- matrix3.h:267 `nrm2sq`. -/
def nrm2sq {K : Type} [CommRing K] (m : Mat K) : K := trace (mulMM (transpose m) m)

/-- matrix3.h:268 `nrm2`: `sqrt` of `nrm2sq` converted to `double`. -/
def nrm2 {K : Type} [CommRing K] (φ : K →+* ℝ) (m : Mat K) : ℝ := Real.sqrt (φ (nrm2sq m))

/-- LatticeUtils.cpp:44-46: `d(1,1,1); d(k2,k1)=i; d(k3,k1)=j` with `k2=(k1+1)%3`, `k3=(k1+2)%3`. -/
def elem (k1 : Fin 3) (i j : Int) : Mat Int := fun a b =>
  if a = k1 + 2 ∧ b = k1 then j else if a = k1 + 1 ∧ b = k1 then i else diag 1 1 1 a b

/-- LatticeUtils.cpp:33-35: `Rreduced`, `t`, `tInv`. -/
structure RState (K : Type) where
  R : Mat K
  t : Mat Int
  tInv : Mat Int

variable {K : Type} [CommRing K]

/-- LatticeUtils.cpp:43-55: one trial; also returns whether it was accepted. -/
def trial (φ : K →+* ℝ) (thr : ℝ) (s : RState K) (k1 : Fin 3) (i j : Int) : RState K × Bool :=
  let d := elem k1 i j
  let dInv := elem k1 (-i) (-j)
  let Rproposed := mulMM s.R (castMat d)
  if nrm2 φ Rproposed < nrm2 φ s.R - thr then (⟨Rproposed, mulMM s.t d, mulMM dInv s.tInv⟩, true) else (s, false)

/-- LatticeUtils.cpp:38-42: the order of trials in one sweep. -/
def trials : List (Fin 3 × Int × Int) :=
  [0, 1, 2].flatMap fun k => [-1, 0, 1].flatMap fun i => [-1, 0, 1].map fun j => (k, i, j)

/-- LatticeUtils.cpp:37-57: one sweep; also returns `changed`. -/
def sweep (φ : K →+* ℝ) (thr : ℝ) : List (Fin 3 × Int × Int) → RState K → RState K × Bool
  | [], s => (s, false)
  | p :: ps, s =>
    let (s1, c1) := trial φ thr s p.1 p.2.1 p.2.2
    let (s2, c2) := sweep φ thr ps s1
    (s2, c1 || c2)

/-- LatticeUtils.cpp:36-59: the outer loop; `diverge` if it has not ended after `fuel` sweeps. -/
def reduceLoop (φ : K →+* ℝ) (thr : ℝ) : Nat → RState K → Res (RState K)
  | 0, _ => .error .diverge
  | fuel+1, s =>
    let (s', changed) := sweep φ thr trials s
    if changed then reduceLoop φ thr fuel s' else .ok s'

/-- LatticeUtils.cpp:31-63 `reduceMatrix` (returning also the two transmission matrices). -/
def reduceMatrix (φ : K →+* ℝ) (thr : ℝ) (fuel : Nat) (R : Mat K) : Res (RState K) :=
  reduceLoop φ thr fuel ⟨R, diag 1 1 1, diag 1 1 1⟩

/-- LatticeUtils.cpp:66-68 `reduceLatticeVectors`. -/
def reduceLatticeVectors (thr : ℝ) (fuel : Nat) (R : Mat ℝ) : Res (RState ℝ) := reduceMatrix (RingHom.id ℝ) thr fuel R

/-! ### getSymmetries (LatticeUtils.cpp:71-104) -/

/-- LatticeUtils.cpp:83-87: the integer matrices tried, in loop order (last entry fastest). -/
def candidates : List (Mat Int) :=
  let r : List Int := [-1, 0, 1]
  r.flatMap fun m00 => r.flatMap fun m01 => r.flatMap fun m02 =>
  r.flatMap fun m10 => r.flatMap fun m11 => r.flatMap fun m12 =>
  r.flatMap fun m20 => r.flatMap fun m21 => r.map fun m22 =>
    fun a b => vec (vec m00 m01 m02 b) (vec m10 m11 m12 b) (vec m20 m21 m22 b) a

/-- Entrywise difference of matrices (matrix3.h:94-100). -/
def subM (a b : Mat ℝ) : Mat ℝ := fun i j => a i j - b i j

/-- LatticeUtils.cpp:88: leaves the metric invariant. -/
def keepsMetric (thr : ℝ) (metric : Mat ℝ) (m : Mat Int) : Prop :=
  nrm2 (RingHom.id ℝ) (subM metric (mulMM (mulMM (transpose (castMat m)) metric) (castMat m)))
    < thr * nrm2 (RingHom.id ℝ) metric

/-- LatticeUtils.cpp:91-95: `symBroken`. -/
def symBroken (isTruncated : Fin 3 → Bool) (m : Mat Int) : Prop :=
  ∃ i j, m i j ≠ 0 ∧ isTruncated i ≠ isTruncated j

/-- LatticeUtils.cpp:71-104 `getSymmetries`. -/
def getSymmetries (thr : ℝ) (fuel : Nat) (R : Mat ℝ) (isTruncated : Fin 3 → Bool) : Res (List (Mat Int)) :=
  match reduceLatticeVectors thr fuel R with
  | .error e => .error e
  | .ok s =>
    let metric := mulMM (transpose s.R) s.R
    .ok (candidates.filterMap fun m =>
      if keepsMetric thr metric m then
        let mOrig := mulMM (mulMM s.t m) s.tInv
        if symBroken isTruncated mOrig then none else some mOrig
      else none)

end
end Jdftx.Lat
