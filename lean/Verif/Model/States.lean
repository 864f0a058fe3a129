import Verif.Model.ReduceKmesh
import Verif.Model.Fillings

/-!
# Model of the list of electronic states (jdftx/electronic/ElecInfo.cpp:472-512 `kpointsReduce`)

Exact real arithmetic; printing is not modelled.
-/
namespace Jdftx.States
open Jdftx.M3 Jdftx.Kpts
noncomputable section

/-- electronic/ElecInfo.h `SpinType`. -/
inductive SpinType | none | z | vector | orbit
deriving DecidableEq

/-- ElecInfo.cpp:50-55: spin weight. -/
def spinWeight : SpinType → Int
  | .none => 2
  | .z => 1
  | .vector => 1
  | .orbit => 1

/-- ElecInfo.h:77 `nSpins`. -/
def nSpins (t : SpinType) : Nat := if t = .z then 2 else 1

/-- ElecInfo.h:45-54 `QuantumNumber`. -/
structure State where
  k : V3 ℝ
  spin : Int
  weight : ℝ

/-- ElecInfo.h:53 `index`. -/
def State.index (q : State) : Nat := if q.spin < 0 then 1 else 0

/-- ElecInfo.cpp:480-492: spin weight factors and second copy for the other spin; `qRed` is the reduced mesh, whose points have spin 0. -/
def addSpin (t : SpinType) (qRed : List (QN ℝ)) : List State :=
  let qnums : List State := qRed.map fun q => ⟨q.k, 0, q.weight * (spinWeight t : ℝ)⟩
  if t = .z then (qnums.map fun q => { q with spin := 1 }) ++ (qRed.map fun q => ⟨q.k, -1, q.weight⟩)
  else qnums

/-- ElecInfo.cpp:494-504: offset k-points for incommensurate perturbations: the states at `k + q` followed by those at `k - q`. -/
def offset (qvec : V3 ℝ) (qnums : List State) : List State :=
  (qnums.map fun q => { q with k := fun c => q.k c + qvec c }) ++ (qnums.map fun q => { q with k := fun c => q.k c - qvec c })

/-- ElecInfo.cpp:472-505 `kpointsReduce`; `pert` is the wave vector of an incommensurate perturbation if line 495 applies. The arguments before `t`
are those of the mesh reduction. -/
def kpointsReduce (thr : ℝ) (S : V3 Int) (nProcs : Nat) (useInv : Bool) (sym : List (Mat Int)) (t : SpinType) (pert : Option (V3 ℝ)) (mesh : List (QN ℝ)) :
    Res (List State) :=
  match RK.reduceKmesh thr S nProcs useInv sym mesh with
  | .error e => .error e
  | .ok out =>
    let qnums := addSpin t out.qRed
    match pert with
    | none => .ok qnums
    | some qvec => .ok (offset qvec qnums)

/-- What the set-up of fillings needs of the states (ElecInfo.cpp:104-107): spin channel and weight. -/
def forFillings (states : List State) : List (Nat × ℝ) := states.map fun q => (q.index, q.weight)

end
end Jdftx.States
