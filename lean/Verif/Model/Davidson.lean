import Verif.Model.ElecMin

/-!
# Model of the Davidson band solver (jdftx/electronic/BandDavidson.cpp)

Complex matrices over exact arithmetic, one state (k-point and spin). `B` are the components of a wavefunction (plane waves and spinor components), `P` the projectors of the pseudopotentials. The
Hamiltonian that `applyHamiltonian` applies (fixed here, BandDavidson.cpp:25), the overlap operator and the projectors are matrices. The LAPACK routines are those of `Model.ElecMin`, for each size.
Logging is not modelled.
-/
namespace Jdftx.Davidson
open Matrix Jdftx.ElecMin ComplexConjugate
noncomputable section

/-- The operators of one state: `applyHamiltonian` (ElecVars.cpp:659-703), `O` (ColumnBundleOperators.cpp:339-343), the conjugate projectors (IonInfo.cpp:379-388), `|k+G|²` of each component and the
volume of the unit cell. -/
structure Sys (B P : Type) where
  H : Matrix B B ℂ
  O : Matrix B B ℂ
  proj : Matrix P B ℂ
  kgSq : B → ℝ
  detR : ℝ

/-- What `minimize` reads: `nBands`, `davidsonBandRatio`, number of plane waves, `energyDiffThreshold`, `nIterations`, the weight and fillings of the state, `isInner`. -/
structure Params where
  nOut : ℕ
  ratio : ℝ
  nbasis : ℕ
  thr : ℝ
  nIter : ℕ
  weight : ℝ
  F : List ℝ
  isInner : Bool

/-- Ways to fail: the program stops with a message, it exits in a routine of linear algebra, or it goes on with values that are not numbers. -/
inductive Fail
  | die
  | exit
  | nan
  deriving DecidableEq

/-- The working set: `C`, `HC`, `VdagC`, `Hsub_eigs`. -/
structure State (B P : Type) where
  nb : ℕ
  C : Matrix B (Fin nb) ℂ
  HC : Matrix B (Fin nb) ℂ
  V : Matrix P (Fin nb) ℂ
  eigs : Fin nb → ℝ

variable {B P : Type} [Fintype B]

/-- BandDavidson.cpp:37: `nBandsMax`. -/
def nMax (p : Params) : ℕ := ⌈p.ratio * p.nOut⌉₊

/-- BandDavidson.cpp:41-48: `nEigsMin`. -/
def nEigsMin (p : Params) : ℕ := if p.isInner then (p.F.filter fun f => decide (f > 1e-6)).length else p.nOut

/-- BandDavidson.cpp:51-59: the initial subspace; `V` are the projections of `C` that are rotated along. -/
def start (l : ∀ n, Lapack n) (S : Sys B P) {n : ℕ} (C : Matrix B (Fin n) ℂ) (V : Matrix P (Fin n) ℂ) : State B P :=
  let HC := S.H * C
  let e := (l n).eig (Cᴴ * HC)
  ⟨n, C * e.1, HC * e.1, V * e.1, e.2⟩

/-- BandDavidson.cpp:68: `KEref`, with ColumnBundleOperators_internal.h:27-31 `reducedL_calc`. -/
def keRef (S : Sys B P) {n : ℕ} (C : Matrix B (Fin n) ℂ) (b : Fin n) : ℝ := -0.5 * (∑ i, conj (C i b) * (((-S.detR * S.kgSq i : ℝ) : ℂ) * C i b)).re

/-- ColumnBundleOperators_internal.h:71: the factor of a component. -/
def precondFactor (x : ℝ) : ℝ := (27 + x * (18 + x * (12 + x * 8))) / (27 + x * (18 + x * (12 + x * (8 + x * 16))))

/-- BandDavidson.cpp:69: residuals. -/
def residual (S : Sys B P) (s : State B P) : Matrix B (Fin s.nb) ℂ := s.HC - S.O * s.C * diagonal fun b => (s.eigs b : ℂ)

/-- BandDavidson.cpp:70, ColumnBundleOperators_internal.h:65-73 `precond_inv_kinetic_band_calc`: preconditioned residuals. -/
def correction (S : Sys B P) (s : State B P) : Matrix B (Fin s.nb) ℂ :=
  Matrix.of fun i b => residual S s i b * (precondFactor (0.5 * S.kgSq i / keRef S s.C b) : ℂ)

/-- BandDavidson.cpp:72: `CexpNorm`. -/
def normSq {n : ℕ} (X : Matrix B (Fin n) ℂ) (b : Fin n) : ℝ := (∑ i, conj (X i b) * X i b).re

/-- BandDavidson.cpp:73: `CexpNormCut`. -/
def normCut (B : Type) [Fintype B] (p : Params) (nb : ℕ) : ℝ := max (p.thr / nb) (1e-15 * Fintype.card B)

/-- Columns of `Cexp`, `CexpNorm` and `bOut` in the loop of BandDavidson.cpp:74-82. -/
structure Cols (B : Type) where
  data : ℕ → B → ℂ
  norm : ℕ → ℝ
  n : ℕ

/-- BandDavidson.cpp:77-82: the loop that drops columns, in place. -/
def compact (cut : ℝ) : List ℕ → Cols B → Cols B
  | [], c => c
  | b :: t, c =>
    if c.norm b < cut then compact cut t c
    else compact cut t ⟨if c.n < b then Function.update c.data c.n (c.data b) else c.data, Function.update c.norm c.n (1 / Real.sqrt (c.norm b)), c.n + 1⟩

/-- BandDavidson.cpp:74-82. -/
def dropped (S : Sys B P) (p : Params) (s : State B P) (done : ℕ) : Cols B :=
  compact (normCut B p s.nb) ((List.range s.nb).drop done)
    ⟨fun b i => if h : b < s.nb then correction S s i ⟨b, h⟩ else 0, fun b => if h : b < s.nb then normSq (correction S s) ⟨b, h⟩ else 0, 0⟩

/-- BandDavidson.cpp:87-92: the expansion of the subspace. -/
def expansion (c : Cols B) : Matrix B (Fin c.n) ℂ := Matrix.of fun i j => c.data j i * (c.norm j : ℂ)

/-- BandDavidson.cpp:102-105, 120-123: a matrix from its blocks. -/
def blocks {n m : ℕ} (a : Matrix (Fin n) (Fin n) ℂ) (b : Matrix (Fin n) (Fin m) ℂ) (c : Matrix (Fin m) (Fin n) ℂ) (d : Matrix (Fin m) (Fin m) ℂ) : ElecMin.Mat (n + m) :=
  Matrix.of fun i j => Fin.addCases (fun i' => Fin.addCases (fun j' => a i' j') (fun j' => b i' j') j) (fun i' => Fin.addCases (fun j' => c i' j') (fun j' => d i' j') j) i

/-- BandDavidson.cpp:95-106: `bigOsub`. -/
def bigO (S : Sys B P) (s : State B P) {m : ℕ} (X : Matrix B (Fin m) ℂ) : ElecMin.Mat (s.nb + m) :=
  let OX := S.O * X
  blocks 1 (s.Cᴴ * OX) (s.Cᴴ * OX)ᴴ (Xᴴ * OX)

/-- BandDavidson.cpp:107-124: `bigHsub`. -/
def bigH (S : Sys B P) (s : State B P) {m : ℕ} (X : Matrix B (Fin m) ℂ) : ElecMin.Mat (s.nb + m) :=
  let HX := S.H * X
  blocks (diagonal fun b => (s.eigs b : ℂ)) (s.Cᴴ * HX) (s.Cᴴ * HX)ᴴ (Xᴴ * HX)

/-- BandDavidson.cpp:132-140: the new working set from the old one, the expansion and the rotation. -/
def rotated (S : Sys B P) (s : State B P) {m : ℕ} (X : Matrix B (Fin m) ℂ) (rot : ElecMin.Mat (s.nb + m)) (eigs : Fin (s.nb + m) → ℝ) (next : ℕ) (h : next ≤ s.nb + m) : State B P :=
  let Crot : Matrix (Fin s.nb) (Fin next) ℂ := Matrix.of fun i j => rot (Fin.castAdd m i) (Fin.castLE h j)
  let Xrot : Matrix (Fin m) (Fin next) ℂ := Matrix.of fun i j => rot (Fin.natAdd s.nb i) (Fin.castLE h j)
  ⟨next, s.C * Crot + X * Xrot, s.HC * Crot + S.H * X * Xrot, s.V * Crot + S.proj * X * Xrot, fun j => eigs (Fin.castLE h j)⟩

open Classical in
/-- BandDavidson.cpp:66-140, one iteration: `none` when nothing is left to expand the subspace with (lines 83-86). `done` is `nEigsDone`. -/
def iteration (l : ∀ n, Lapack n) (S : Sys B P) (p : Params) (s : State B P) (done : ℕ) : Except Fail (Option (State B P)) :=
  if ∃ b : Fin s.nb, done ≤ b ∧ keRef S s.C b = 0 then .error .nan
  else
    let c := dropped S p s done
    if c.n = 0 then .ok none
    else
      let X := expansion c
      match orthoMatrix (l _) (bigO S s X) with
      | none => .error .exit
      | some U =>
        let h := daggerSymm (Uᴴ * bigH S s X * U)
        .ok (some (rotated S s X (U * ((l _).eig h).1) ((l _).eig h).2 (min (nMax p) (s.nb + c.n)) (Nat.min_le_right _ _)))

/-- An eigenvalue of the working set. -/
def State.eig (s : State B P) (b : ℕ) : ℝ := if h : b < s.nb then s.eigs ⟨b, h⟩ else 0

/-- BandDavidson.cpp:60, 143: `Eband`. -/
def eband (p : Params) (s : State B P) : ℝ := p.weight * ∑ b ∈ Finset.range p.nOut, s.eig b

open Classical in
/-- BandDavidson.cpp:146-149: `nEigsDone`. -/
def nDone (p : Params) (old new : State B P) : ℕ := ((List.range old.nb).takeWhile fun b => decide (¬ |new.eig b - old.eig b| > p.thr)).length

/-- How the loop ended. -/
inductive Verdict
  | empty
  | energy
  | bands
  | iterations
  deriving DecidableEq

open Classical in
/-- BandDavidson.cpp:64-162: the loop, with the iterations that are left. -/
def loop (l : ∀ n, Lapack n) (S : Sys B P) (p : Params) : ℕ → State B P → ℕ → Except Fail (State B P × Verdict)
  | 0, s, _ => .ok (s, .iterations)
  | k + 1, s, done =>
    match iteration l S p s done with
    | .error e => .error e
    | .ok none => .ok (s, .empty)
    | .ok (some t) =>
      let dE := eband p t - eband p s
      if dE < 0 ∧ |dE| < p.thr then .ok (t, .energy)
      else if nEigsMin p ≤ nDone p s t then .ok (t, .bands)
      else loop l S p k t (nDone p s t)

/-- What `minimize` leaves: `C`, `VdagC`, `Hsub`, `Hsub_evecs`, `Hsub_eigs`. -/
structure Result (B P : Type) (n : ℕ) where
  C : Matrix B (Fin n) ℂ
  V : Matrix P (Fin n) ℂ
  Hsub : ElecMin.Mat n
  evecs : ElecMin.Mat n
  eigs : Fin n → ℝ
  verdict : Verdict

open Classical in
/-- BandDavidson.cpp:28-172 `minimize`. The last branch stands for the failed assertions when there are less bands than requested. -/
def minimize (l : ∀ n, Lapack n) (S : Sys B P) (p : Params) (C : Matrix B (Fin p.nOut) ℂ) (V : Matrix P (Fin p.nOut) ℂ) : Except Fail (Result B P p.nOut) :=
  if 2 * nMax p ≥ p.nbasis then .error .die
  else
    match loop l S p p.nIter (start l S C V) 0 with
    | .error e => .error e
    | .ok (s, v) =>
      if h : p.nOut ≤ s.nb then
        .ok ⟨Matrix.of fun i j => s.C i (Fin.castLE h j), Matrix.of fun i j => s.V i (Fin.castLE h j), diagonal fun j => (s.eigs (Fin.castLE h j) : ℂ), 1, fun j => s.eigs (Fin.castLE h j), v⟩
      else .error .exit

end
end Jdftx.Davidson
