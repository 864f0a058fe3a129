import Verif.Model.Smear
import Mathlib.LinearAlgebra.Matrix.PosDef
import Mathlib.Analysis.Complex.Order

/-!
# Model of the electronic minimiser (jdftx/electronic/ElecMinimizer.cpp:55-267 and jdftx/electronic/ElecVars.cpp:366-491, 650-657)

Complex matrices over exact arithmetic. `Q` are the states (k-points and spins), `B` the plane-wave basis, `Fin n` the bands. The loops over the
states of all processes followed by `allReduce` are sums over `Q`. What happens between the wavefunctions and the energy (density, potentials,
pseudopotentials, exchange) enters only as a function `E` of the one-particle density matrices `C F C†`, with the Hamiltonian `H` that
`applyHamiltonian` applies; `O` is the overlap operator. The LAPACK routines behind `diagonalize` and `cholesky` and the bisections of
`findMu`/`nElectronsCalc` are parameters; the specification says what is assumed of them. `none` means that the program exits
(`stackTraceExit` in `cholesky`). `rotExists` only skips multiplications by identity matrices and is not kept. The preconditioned gradients
are not modelled.
-/
namespace Jdftx.ElecMin
open Matrix Jdftx.Smear ComplexConjugate
noncomputable section

/-- Square matrices in the space of bands. -/
abbrev Mat (n : ℕ) := Matrix (Fin n) (Fin n) ℂ

/-- LAPACK: eigenvectors and eigenvalues (core/matrixLinalg.cpp `diagonalize`), lower Cholesky factor (matrixLinalg.cpp:405-444, `none` when the
matrix is not positive definite). -/
structure Lapack (n : ℕ) where
  eig : Mat n → Mat n × (Fin n → ℝ)
  chol : Mat n → Option (Mat n)

/-- ElecInfo.h: the settings used here. `hsub` is `fillingsUpdate == FillingsHsub`; `mu`, `Bz` are `none` for NAN; `F0` are the fillings kept
when `fillingsUpdate == FillingsConst`. -/
structure Info (Q : Type) (n : ℕ) where
  w : Q → ℝ
  spin : Q → ℝ
  spinZ : Bool
  kind : Kind
  σ : ℝ
  cut : ℝ
  hsub : Bool
  scalar : Bool
  mu : Option ℝ
  Bz : Option ℝ
  F0 : Q → Fin n → ℝ

/-- The bisections: `findMu` returns the chemical potential and the field at the current electron number, `findBz` is the field that
`nElectronsCalc` (ElecInfo.cpp:383-400) finds when the magnetization is fixed. -/
structure Search (Q : Type) (n : ℕ) where
  findMu : (Q → Fin n → ℝ) → ℝ × ℝ
  findBz : ℝ → (Q → Fin n → ℝ) → ℝ

/-- Energy as a function of the density matrices of all states, Hamiltonian of each state, overlap operator. -/
structure Phys (Q B : Type) where
  E : (Q → Matrix B B ℂ) → ℝ
  H : (Q → Matrix B B ℂ) → Q → Matrix B B ℂ
  O : Q → Matrix B B ℂ

/-- Variables of one state: ElecVars `C[q]`, `Haux_eigs[q]`; ElecMinimizer `rotPrev[q]`, `rotPrevC[q]`, `rotPrevCinv[q]`. -/
structure QState (B : Type) (n : ℕ) where
  C : Matrix B (Fin n) ℂ
  eps : Fin n → ℝ
  rotPrev : Mat n
  rotPrevC : Mat n
  rotPrevCinv : Mat n

/-- ElecMinimizer.h `ElecGradient`. -/
structure Grad (Q B : Type) (n : ℕ) where
  C : Q → Matrix B (Fin n) ℂ
  Haux : Q → Mat n

variable {Q B : Type} [Fintype Q] [Fintype B] {n : ℕ}

/-- core/matrixLinalg.cpp:508-516 `orthoMatrix`: adjoint of the inverse of the lower Cholesky factor. -/
def orthoMatrix (l : Lapack n) (A : Mat n) : Option (Mat n) := (l.chol A).map fun L => (L⁻¹)ᴴ

/-- core/matrixLinalg.cpp:256-260 `cis`. -/
def cis (l : Lapack n) (A : Mat n) : Mat n := (l.eig A).1 * diagonal (fun i => Complex.exp (Complex.I * (l.eig A).2 i)) * ((l.eig A).1)ᴴ

/-- core/matrixOperators.cpp:356-358 `dagger_symmetrize`. -/
def daggerSymm (A : Mat n) : Mat n := (0.5 : ℂ) • (Aᴴ + A)

/-- ElecMinimizer.cpp:160-191 `step` for one state, with ElecVars.cpp:650-657 `orthonormalize`. -/
def stepQ (i : Info Q n) (l : Lapack n) (O : Matrix B B ℂ) (dC : Matrix B (Fin n) ℂ) (dHaux : Mat n) (α : ℝ) (s : QState B n) : Option (QState B n) :=
  let X := s.C + (α : ℂ) • (dC * s.rotPrevC)
  (orthoMatrix l (Xᴴ * (O * X))).map fun S =>
    if !i.hsub && i.scalar then { s with C := X * S }
    else
      let Haux := diagonal (fun j => (s.eps j : ℂ)) + (α : ℂ) • ((s.rotPrev)ᴴ * dHaux * s.rotPrev)
      let rot := if i.hsub then (l.eig Haux).1 else cis l ((α : ℂ) • dHaux)
      let eps := if i.hsub then (l.eig Haux).2 else s.eps
      let rotC := S * rot
      { C := X * rotC, eps := eps, rotPrev := s.rotPrev * rot, rotPrevC := s.rotPrevC * rotC, rotPrevCinv := rotC⁻¹ * s.rotPrevCinv }

/-- ElecMinimizer.cpp:160-191 `step`: all states. -/
def step (i : Info Q n) (l : Lapack n) (p : Phys Q B) (s : Q → QState B n) (dir : Grad Q B n) (α : ℝ) : Option (Q → QState B n) :=
  open Classical in
  if h : ∀ q, (stepQ i l (p.O q) (dir.C q) (dir.Haux q) α (s q)).isSome then some fun q => (stepQ i l (p.O q) (dir.C q) (dir.Haux q) α (s q)).get (h q)
  else none

/-- ElecInfo.h:112 `muEff`. -/
def muEff (i : Info Q n) (m : ℝ × ℝ) (q : Q) : ℝ := m.1 + m.2 * i.spin q

/-- ElecVars.cpp:379-381: the chemical potential and field from which the fillings are computed. -/
def mults (i : Info Q n) (f : Search Q n) (eps : Q → Fin n → ℝ) : ℝ × ℝ :=
  match i.mu with
  | none => f.findMu eps
  | some mu => (mu, match i.Bz with | some b => b | none => f.findBz mu eps)

/-- ElecVars.cpp:382-384: the fillings. -/
def fill (i : Info Q n) (f : Search Q n) (eps : Q → Fin n → ℝ) (q : Q) (j : Fin n) : ℝ :=
  if i.hsub then smear i.kind i.σ (muEff i (mults i f eps) q) (eps q j) else i.F0 q j

/-- ElecInfo.cpp:361-376 `magnetizationCalc`: electron number. -/
def number (i : Info Q n) (m : ℝ × ℝ) (eps : Q → Fin n → ℝ) : ℝ := ∑ q, ∑ j, i.w q * smear i.kind i.σ (muEff i m q) (eps q j)

/-- ElecInfo.cpp:361-376 `magnetizationCalc`: magnetization. -/
def magnetization (i : Info Q n) (m : ℝ × ℝ) (eps : Q → Fin n → ℝ) : ℝ := ∑ q, ∑ j, i.spin q * (i.w q * smear i.kind i.σ (muEff i m q) (eps q j))

/-- ElecInfo.cpp:264-265: the multipliers used for the energies. -/
def multsE (i : Info Q n) (f : Search Q n) (eps : Q → Fin n → ℝ) : ℝ × ℝ :=
  match i.mu with
  | none => f.findMu eps
  | some mu => (mu, 0)

/-- ElecInfo.cpp:267-271: `TS`. -/
def entropyTS (i : Info Q n) (f : Search Q n) (eps : Q → Fin n → ℝ) : ℝ :=
  ∑ q, i.σ * i.w q * ∑ j, smearEntropy i.cut i.kind i.σ (muEff i (multsE i f eps) q) (eps q j)

/-- ElecInfo.cpp:273-280: the magnetic field term. -/
def minusMzBz (i : Info Q n) (f : Search Q n) (eps : Q → Fin n → ℝ) : ℝ :=
  match i.Bz with
  | some _ => -magnetization i (multsE i f eps) eps * (multsE i f eps).2
  | none => 0

/-- Density matrices of all states. -/
def density (i : Info Q n) (f : Search Q n) (s : Q → QState B n) (q : Q) : Matrix B B ℂ :=
  (s q).C * diagonal (fun j => (fill i f (fun q => (s q).eps) q j : ℂ)) * ((s q).C)ᴴ

/-- Energies.cpp:51-56 `relevantFreeEnergy`, with Energies.h:39-42 and ElecInfo.cpp:260-284. -/
def freeEnergy (i : Info Q n) (f : Search Q n) (p : Phys Q B) (s : Q → QState B n) : ℝ :=
  let eps := fun q => (s q).eps
  if !i.hsub then p.E (density i f s)
  else
    let F := p.E (density i f s) + minusMzBz i f eps - entropyTS i f eps
    match i.mu with
    | none => F
    | some mu => F - mu * number i (mults i f eps) eps

/-- ElecVars.cpp:659-698: `Hsub`. -/
def Hsub (i : Info Q n) (f : Search Q n) (p : Phys Q B) (s : Q → QState B n) (q : Q) : Mat n :=
  ((s q).C)ᴴ * (p.H (density i f s) q * (s q).C)

/-- ElecInfo.h:53 `index`. -/
def index (i : Info Q n) (q : Q) : ℕ := open Classical in if i.spin q < 0 then 1 else 0

/-- ElecVars.cpp:438-445: `dmuNum` of a spin channel. -/
def dmuNum (i : Info Q n) (f : Search Q n) (p : Phys Q B) (s : Q → QState B n) (c : ℕ) : ℝ :=
  let eps := fun q => (s q).eps
  ∑ q, if index i q = c then i.w q * ∑ j, smearPrime i.kind i.σ (muEff i (mults i f eps) q) (eps q j) * ((Hsub i f p s q j j).re - eps q j) else 0

/-- ElecVars.cpp:438-445: `dmuDen` of a spin channel. -/
def dmuDen (i : Info Q n) (f : Search Q n) (s : Q → QState B n) (c : ℕ) : ℝ :=
  let eps := fun q => (s q).eps
  ∑ q, if index i q = c then i.w q * ∑ j, smearPrime i.kind i.σ (muEff i (mults i f eps) q) (eps q j) else 0

/-- ElecVars.cpp:435-465: `dmuContrib` and `dBzContrib`. -/
def dmults (i : Info Q n) (f : Search Q n) (p : Phys Q B) (s : Q → QState B n) : ℝ × ℝ :=
  let num := dmuNum i f p s
  let den := dmuDen i f s
  let mconstrain := i.spinZ && i.Bz.isNone
  match i.mu, mconstrain with
  | none, true => (0.5 * (num 0 / den 0 + num 1 / den 1), 0.5 * (num 0 / den 0 - num 1 / den 1))
  | some _, true => (0, (num 0 - num 1) / (den 0 - den 1))
  | none, false => ((num 0 + num 1) / (den 0 + den 1), 0)
  | some _, false => (0, 0)

/-- ElecInfo.cpp:346-357 `smearGrad`. -/
def smearGrad (i : Info Q n) (mu : ℝ) (eps : Fin n → ℝ) (g : Mat n) : Mat n := fun a b =>
  open Classical in
  g a b * ((if |eps a - eps b| < 1e-6 then smearPrime i.kind i.σ mu (eps a)
    else (smear i.kind i.σ mu (eps a) - smear i.kind i.σ mu (eps b)) / (eps a - eps b) : ℝ) : ℂ)

/-- ElecVars.cpp:421-422, 467-474: gradient in the frame of the current wavefunctions. -/
def rawGrad (i : Info Q n) (f : Search Q n) (p : Phys Q B) (s : Q → QState B n) : Grad Q B n where
  C q := (p.H (density i f s) q * (s q).C - p.O q * (s q).C * Hsub i f p s q) * diagonal (fun j => ((fill i f (fun q => (s q).eps) q j * i.w q : ℝ) : ℂ))
  Haux q :=
    let gradF := Hsub i f p s q - diagonal (fun j => ((s q).eps j : ℂ)) - (muEff i (dmults i f p s) q : ℂ) • (1 : Mat n)
    (i.w q : ℂ) • daggerSymm (smearGrad i (muEff i (mults i f (fun q => (s q).eps)) q) (s q).eps gradF)

/-- ElecMinimizer.cpp:193-225 `compute`: the gradient given to the minimiser. -/
def grad (i : Info Q n) (f : Search Q n) (p : Phys Q B) (s : Q → QState B n) : Grad Q B n where
  C q := (rawGrad i f p s).C q * (s q).rotPrevCinv
  Haux q :=
    if i.hsub then (s q).rotPrev * (rawGrad i f p s).Haux q * ((s q).rotPrev)ᴴ
    else if !i.scalar then
      let F : Mat n := diagonal (fun j => (fill i f (fun q => (s q).eps) q j : ℂ))
      daggerSymm (Complex.I • (F * Hsub i f p s q - Hsub i f p s q * F))
    else 0

/-- ElecMinimizer.cpp:55-66 `dot`. -/
def dot (x y : Grad Q B n) : ℝ :=
  ∑ q, ((∑ b, ∑ j, conj (x.C q b j) * y.C q b j).re * 2 + (∑ a, ∑ j, conj (x.Haux q a j) * y.Haux q a j).re)

/-- ElecMinimizer.cpp:249-254: the part of `report` that restores unitary rotations. -/
def report (s : Q → QState B n) (q : Q) : QState B n := { s q with rotPrevC := (s q).rotPrev, rotPrevCinv := ((s q).rotPrev)ᴴ }

/-- ElecMinimizer.cpp:262-267 `constrain`. -/
def constrain (p : Phys Q B) (s : Q → QState B n) (dir : Grad Q B n) : Grad Q B n where
  C q := dir.C q - (s q).C * (((s q).C)ᴴ * (p.O q * dir.C q))
  Haux := dir.Haux

/-- ElecMinimizer.cpp:145-153: at the start the rotations are identities. -/
def start (C : Q → Matrix B (Fin n) ℂ) (eps : Q → Fin n → ℝ) (q : Q) : QState B n := ⟨C q, eps q, 1, 1, 1⟩

end
end Jdftx.ElecMin
