import Verif.Model.Outcome
import Mathlib.Algebra.Order.Floor.Ring
import Mathlib.Algebra.Order.Round
import Mathlib.Algebra.Order.Field.Basic

/-!
# Model of the initial fillings (`ElecInfo::setup`, jdftx/electronic/ElecInfo.cpp:70-196)

Exact arithmetic in an ordered field. All states are handled by one process here; the sum over processes (line 163) is one sum.
-/
namespace Jdftx.Fill

variable {K : Type} [Field K] [LinearOrder K] [IsStrictOrderedRing K] [FloorRing K]

/-- Settings used by `setup`. -/
structure Inp (K : Type) where
  /-- number of spin channels (ElecInfo.h `nSpins()`) -/
  nSpins : Nat
  /-- lines 51-54 -/
  spinWeight : K
  Qinitial : K
  Minitial : K
  /-- valence charge and number of atoms of each species -/
  species : List (K × Nat)
  /-- requested number of bands, 0 for automatic -/
  nBands : Nat
  /-- `fillingsUpdate == FillingsConst` -/
  fixedFillings : Bool
  nBandsMultiplier : K
  nAtomicOrbitals : Nat
  /-- spin channel and weight of each state -/
  states : List (Nat × K)

/-- Lines 71-74 and 82-86: electrons in spin channel `s`. -/
def nsElectrons (p : Inp K) (s : Nat) : K :=
  p.species.foldl (fun a sp => a + sp.1 * (sp.2 : K) * (1 / (p.nSpins : K))) ((p.Qinitial + (if s ≠ 0 then -1 else 1) * p.Minitial) / p.nSpins)

/-- Lines 82-89: all channels, stopping at a negative one. -/
def channels (p : Inp K) : Res (List K) :=
  (List.range p.nSpins).mapM fun s => if nsElectrons p s < 0 then .error .die else .ok (nsElectrons p s)

/-- Line 93: `max_element` (of a non-empty list). -/
def maxElem : List K → K
  | [] => 0
  | x :: l => l.foldl max x

/-- Lines 92-100: number of bands. -/
def bands (p : Inp K) (ns : List K) : Int :=
  if p.nBands ≠ 0 then p.nBands
  else
    let nBandsMin : Int := max 1 ⌈maxElem ns * (1 / p.spinWeight)⌉
    if p.fixedFillings then max nBandsMin (round ((nBandsMin : K) * p.nBandsMultiplier))
    else max (nBandsMin + 1) (round ((p.nAtomicOrbitals : K) * p.nBandsMultiplier))

/-- Lines 107-113: fillings of one state. -/
def fillLoop : Nat → K → List K
  | 0, _ => []
  | n+1, ftot =>
    if ftot > 1 then 1 :: fillLoop n (ftot - 1)
    else if ftot > 0 then ftot :: List.replicate n 0
    else 0 :: fillLoop n (ftot - 0)

/-- Lines 166-185: check that the number of bands is sufficient. -/
def bandsOk (p : Inp K) (nB : Int) (nElectrons : K) : Bool :=
  let qWeightSum := (p.nSpins : K) * p.spinWeight
  if p.fixedFillings then !decide (nB < ⌈nElectrons / qWeightSum⌉)
  else !decide ((nB : K) * qWeightSum ≤ nElectrons)

/-- Lines 104-107: fillings of state `q`, with the electrons of its spin channel. -/
def fillState (p : Inp K) (ns : List K) (q : Nat × K) : Res (List K) :=
  match ns[q.1]? with
  | some n => .ok (fillLoop (bands p ns).toNat (n * (1 / p.spinWeight)))
  | none => .error .ub

/-- Lines 70-114, 166-185 without a file of initial fillings: number of electrons and the fillings of each state. -/
def setup (p : Inp K) : Res (K × List (List K)) := do
  let ns ← channels p
  let nB := bands p ns
  let nElectrons := ns.foldl (· + ·) 0
  let F ← p.states.mapM (fillState p ns)
  if bandsOk p nB nElectrons then .ok (nElectrons, F) else .error .die

/-! ### Fillings read from a file -/

/-- Lines 135-141: take `q` electrons out of the bands given highest first; the list is in that order. -/
def deplete : List K → K → List K × K
  | [], q => ([], q)
  | f :: l, q =>
    if f < q then let r := deplete l (q - f); (0 :: r.1, r.2)
    else ((f - q) :: l, 0)

/-- Lines 148-155: put `q` electrons into the bands, lowest first. -/
def saturate : List K → K → List K × K
  | [], q => ([], q)
  | f :: l, q =>
    if f + q > 1 then let r := saturate l (q - (1 - f)); (1 :: r.1, r.2)
    else ((f + q) :: l, 0)

/-- `F[q].resize(nBands, 0.)`. -/
def resize (n : Nat) (F : List K) : List K := F.take n ++ List.replicate (n - F.length) 0

/-- Lines 119-160: fillings of one state read from a file and adapted to the number of bands; `fMin`, `fMax` are the limits of
lines 122-123. `F` already includes the factor `wInv` of line 119. -/
def adapt (fMin fMax : K) (nBands : Nat) (F : List K) : Res (List K) :=
  if F.any (fun f => decide (f < fMin) || decide (fMax < f)) then .error .die
  else
    let sumFchange := (F.drop nBands).foldl (· + ·) 0
    let F := resize nBands F
    if sumFchange < 0 then
      let r := deplete F.reverse (-sumFchange)
      if r.2 > 0 then .error .die else .ok r.1.reverse
    else if sumFchange > 0 then
      let r := saturate F sumFchange
      if r.2 > 0 then .error .die else .ok r.1
    else .ok F

end Jdftx.Fill
