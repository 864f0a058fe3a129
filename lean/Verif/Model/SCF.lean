import Verif.Model.Pulay
import Verif.Model.PCMSolve

/-!
# Model of the self-consistent field method (jdftx/electronic/SCF.cpp)

Exact arithmetic; grids and Fourier transforms as in `Model.ExCorr`, the mixing itself as in `Model.Pulay`. Spin components are those of `ExCorr.Mode`. The entries of all atomic density matrices are
one array of `nRho` complex numbers. Arrays that are not used (kinetic energy densities, atomic density matrices) are zero instead of empty. The band solver, the evaluation of
densities and potentials, logging and the outer loop for exact exchange are not modelled.
-/
namespace Jdftx.SCF
open Box ExCorr Cavity
noncomputable section

/-- SCFparams, and what is read from `Everything`: SCF.cpp:44-69, 316. -/
structure Params where
  mixDensity : Bool
  mixFraction : ℝ
  mixFractionMag : ℝ
  qKerker : ℝ
  qMetric : ℝ
  qKappa : ℝ
  /-- `k2factor` and `epsBulk` of the fluid, if there is one. -/
  fluid : Option (ℝ × ℝ)
  mixTau : Bool
  hasU : Bool
  history : ℕ

/-- SCF.h:31-36 `SCFvariable`. -/
abbrev Var (m : Mode) (nRho : ℕ) : Type := (Fin (nIn m) → Field) × (Fin (nIn m) → Field) × (Fin nRho → ℂ)

/-- SCF.cpp:31: `GsqReg`. -/
def gsqReg (Gsq GminSq kappaSq : ℝ) : ℝ := if kappaSq ≠ 0 then Gsq + kappaSq else max Gsq GminSq

/-- SCF.cpp:32-33: `kerkerSat`, `metricSat`. -/
def sat (x qSq : ℝ) : ℝ := if qSq ≠ 0 then x / (x + qSq) else 1

/-- SCF.cpp:34. -/
def kerkerValue (Gsq GminSq mixFraction qKerkerSq kappaSq : ℝ) : ℝ := sat (gsqReg Gsq GminSq kappaSq) qKerkerSq * mixFraction

/-- SCF.cpp:35. -/
def metricValue (Gsq GminSq : ℝ) (mixDensity : Bool) (qMetricSq kappaSq : ℝ) : ℝ :=
  if mixDensity then 1 / sat (gsqReg Gsq GminSq kappaSq) qMetricSq else sat (gsqReg Gsq GminSq kappaSq) qMetricSq

/-- `DBL_MAX`. -/
def dblMax : ℝ := (2 - 2⁻¹ ^ 52) * 2 ^ 1023

/-- SCF.cpp:51-54: the vectors of the loops, in their order. -/
def nearby : List (ℤ × ℤ × ℤ) := [-1, 0, 1].flatMap fun x => [-1, 0, 1].flatMap fun y => [-1, 0, 1].map fun z => (x, y, z)

/-- Squared length of a reciprocal lattice vector: `GGT.metric_length_squared`. -/
def lenSq (g : Grid) (v : ℤ × ℤ × ℤ) : ℝ := ∑ k, gvec g.G ⟨v.1, v.2.1, v.2.2⟩ k ^ 2

/-- SCF.cpp:49-56: `GminSq`. -/
def gminSq (g : Grid) : ℝ := nearby.foldl (fun m v => if v ≠ (0, 0, 0) then min m (lenSq g v) else m) dblMax

/-- SCF.cpp:59-61: `qKappaSq`. -/
def kappaSq (p : Params) : ℝ := if 0 ≤ p.qKappa then p.qKappa ^ 2 else match p.fluid with
  | some (k2, eps) => k2 / eps
  | none => 0

variable (g : Grid) (p : Params)

/-- SCF.cpp:62-63: `kerkerMix` at reciprocal lattice vector number `i` of the half space. -/
def kerkerMix (i : ℕ) : ℝ := kerkerValue (PCM.Gsq g i) (gminSq g) p.mixFraction (p.qKerker ^ 2) (kappaSq p)

/-- SCF.cpp:62-63: `diisMetric`. -/
def diisMetric (i : ℕ) : ℝ := metricValue (PCM.Gsq g i) (gminSq g) p.mixDensity (p.qMetric ^ 2) (kappaSq p)

/-- SCF.cpp:38-42: product with a kernel, for one component. -/
def conv (K : ℕ → ℝ) (x : Field) : Field := fftI g.S (wMul K (fftJ g.S x))

/-- SCF.cpp:253-267 `fromSpinDensity`. -/
def fromSpin : (m : Mode) → (Fin (nIn m) → Field) → Fin (nIn m) → Field
  | .unpolarized, n => n
  | .polarized, n => ![fun j => n 0 j + n 1 j, fun j => n 0 j - n 1 j]
  | .noncollinear, n => ![fun j => n 0 j + n 1 j, fun j => n 0 j - n 1 j, fun j => 2 * n 2 j, fun j => -2 * n 3 j]

/-- SCF.cpp:268-282 `toSpinDensity`. -/
def toSpin : (m : Mode) → (Fin (nIn m) → Field) → Fin (nIn m) → Field
  | .unpolarized, v => v
  | .polarized, v => ![fun j => 0.5 * (v 0 j + v 1 j), fun j => 0.5 * (v 0 j - v 1 j)]
  | .noncollinear, v => ![fun j => 0.5 * (v 0 j + v 1 j), fun j => 0.5 * (v 0 j - v 1 j), fun j => 0.5 * v 2 j, fun j => -0.5 * v 3 j]

/-- The part of the electronic state that the mixing reads and replaces: ElecVars `n`, `tau`, `rhoAtom` and `Vscloc`, `Vtau`, `U_rhoAtom`. -/
structure State (m : Mode) (nRho : ℕ) where
  n : Fin (nIn m) → Field
  tau : Fin (nIn m) → Field
  rho : Fin nRho → ℂ
  V : Fin (nIn m) → Field
  Vtau : Fin (nIn m) → Field
  Urho : Fin nRho → ℂ

variable {m : Mode} {nRho : ℕ}

/-- SCF.cpp:285-297 `getVariable`. -/
def getVariable (s : State m nRho) : Var m nRho :=
  (fromSpin m (if p.mixDensity then s.n else s.V), if p.mixTau then fromSpin m (if p.mixDensity then s.tau else s.Vtau) else 0, if p.hasU then (if p.mixDensity then s.rho else s.Urho) else 0)

/-- SCF.cpp:299-312 `setVariable`, without what follows from the new variables (lines 310-311). -/
def setVariable (v : Var m nRho) (s : State m nRho) : State m nRho :=
  if p.mixDensity then { s with n := toSpin m v.1, tau := if p.mixTau then toSpin m v.2.1 else s.tau, rho := if p.hasU then v.2.2 else s.rho }
  else { s with V := toSpin m v.1, Vtau := if p.mixTau then toSpin m v.2.1 else s.Vtau, Urho := if p.hasU then v.2.2 else s.Urho }

/-- SCF.cpp:316, 319-320, 324-325: components after the first are scaled. -/
def enhance (v : Fin (nIn m) → Field) : Fin (nIn m) → Field := fun s j => if s.val = 0 then v s j else v s j * (p.mixFractionMag / p.mixFraction)

/-- SCF.cpp:314-334 `precondition`. -/
def precondition (v : Var m nRho) : Var m nRho :=
  (enhance p fun s => conv g (kerkerMix g p) (v.1 s), if p.mixTau then enhance p fun s => conv g (kerkerMix g p) (v.2.1 s) else 0,
    if p.hasU then fun i => v.2.2 i * (p.mixFraction : ℂ) else 0)

/-- SCF.cpp:336-347 `applyMetric`. -/
def applyMetric (v : Var m nRho) : Var m nRho :=
  (fun s => conv g (diisMetric g p) (v.1 s), if p.mixTau then fun s => conv g (diisMetric g p) (v.2.1 s) else 0, if p.hasU then v.2.2 else 0)

/-- Inner product of arrays of fields. -/
def dotFields (x y : Fin (nIn m) → Field) : ℝ := ∑ s, ∑ j ∈ Finset.range (nr g.S), x s j * y s j

/-- SCF.cpp:197-210 `dot`. -/
def dot (x y : Var m nRho) : ℝ :=
  g.dV * dotFields g x.1 y.1 + (if p.mixTau then g.dV * dotFields g x.2.1 y.2.1 else 0) + if p.hasU then ∑ i, ((starRingEnd ℂ) (x.2.2 i) * y.2.2 i).re else 0

/-- The mixer for these functions; `axpy` (SCF.cpp:180-195) is the addition of a multiple. -/
def env : Pulay.Env ℝ (Var m nRho) := ⟨p.history, dot g p, applyMetric g p, precondition g p⟩

/-! ### History files -/

/-- `saveRawBinary`: the values on the grid. -/
def fieldData (x : Field) : List ℝ := (List.range (nr g.S)).map x

/-- SCF.cpp:238-249 `writeVariable`: numbers in the order written. -/
def writeVariable (v : Var m nRho) : List ℝ :=
  ((List.finRange (nIn m)).flatMap fun s => fieldData g (v.1 s)) ++ (if p.mixTau then (List.finRange (nIn m)).flatMap fun s => fieldData g (v.2.1 s) else [])
    ++ (if p.hasU then (List.finRange nRho).flatMap fun i => [(v.2.2 i).re, (v.2.2 i).im] else [])

/-- SCF.cpp:212-220 `variableSize`, in numbers of eight bytes. -/
def variableSize (m : Mode) (nRho : ℕ) : ℕ := nr g.S * nIn m * (if p.mixTau then 2 else 1) + if p.hasU then 2 * nRho else 0

/-- SCF.cpp:222-236 `readVariable`, from the numbers at the position in the file. -/
def readVariable (m : Mode) (nRho : ℕ) (d : List ℝ) : Var m nRho :=
  let N := nr g.S
  let off := if p.mixTau then 2 * (nIn m * N) else nIn m * N
  (fun s j => if j < N then d.getD (s * N + j) 0 else 0, if p.mixTau then fun s j => if j < N then d.getD (nIn m * N + s * N + j) 0 else 0 else 0,
    if p.hasU then fun i => ⟨d.getD (off + 2 * i) 0, d.getD (off + 2 * i + 1) 0⟩ else 0)

/-- Pulay.h:270-280 `saveState`. -/
def saveState (s : Pulay.PState ℝ (Var m nRho)) : List ℝ := (s.vars.zip s.ress).flatMap fun x => writeVariable g p x.1 ++ writeVariable g p x.2

/-- Pulay.h:236-268 `loadState`: the pairs in a file of `d.length` numbers; stops the program if their number is not whole. -/
def readPairs (m : Mode) (nRho : ℕ) (d : List ℝ) : Res (List (Var m nRho × Var m nRho)) :=
  let c := 2 * variableSize g p m nRho
  if d.length % c ≠ 0 then .error .die
  else .ok ((List.range (d.length / c)).map fun i => (readVariable g p m nRho (d.drop (i * c)), readVariable g p m nRho (d.drop (i * c + variableSize g p m nRho))))

/-! ### Change of eigenvalues -/

/-- SCF.cpp:349-362 `eigDiffRMS` on `P` processes, with the weights of the `nStates` states. -/
def eigDiffRMS (P nStates nBands : ℕ) (w : ℕ → ℝ) (e1 e2 : ℕ → ℕ → ℝ) : ℝ :=
  let part (f : ℕ → ℕ → ℝ) (r : ℕ) : ℝ := ∑ q ∈ Finset.range nStates, if mine nStates P r q then ∑ b ∈ Finset.range nBands, f q b else 0
  let num := allReduce P (part fun q b => w q * (e1 q b - e2 q b) * (e1 q b - e2 q b))
  let den := allReduce P (part fun q _ => w q)
  Real.sqrt (num / den)

end
end Jdftx.SCF
