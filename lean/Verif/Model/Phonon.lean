import Verif.Model.CellMap
import Verif.Model.Symmetrize
import Mathlib.Analysis.SpecialFunctions.Log.Basic
import Mathlib.LinearAlgebra.Matrix.NonsingularInverse
import Mathlib.LinearAlgebra.Matrix.ConjTranspose
import Mathlib.Analysis.Complex.Basic
import Mathlib.Analysis.SpecialFunctions.Trigonometric.Basic

/-!
# Model of the force matrix of phonons (jdftx/phonon/Phonon.cpp)

Exact real and complex arithmetic. A mode is a pair of an atom of the unit cell and a Cartesian direction (`modes` of Phonon_init.cpp:235-245, whose
direction vectors are the unit vectors); the flat index of a mode in the code is `3*atom+direction`, with the atoms of all species in order.
An entry `dgrad[iMode][sp][at + unit*nAtoms(sp)][dir]` of the array of gradients is `F iMode (atom,dir) unit` here, where `atom` stands for the pair
`sp`, `at`. The supercell has `S.s0*S.s1*S.s2` unit cells. The relative errors that are printed are not modelled.
-/
namespace Jdftx.Phonon
noncomputable section
open M3 Matrix

/-- A mode: atom of the unit cell and direction. -/
abbrev Mode (n : Nat) := Fin n × Fin 3

/-- Phonon_init.cpp:145 `prodSup`. -/
def prodSup (S : Box.Size) : Nat := S.s0 * S.s1 * S.s2

/-- Phonon.cpp:227-233 `getCell`. -/
def getCell (S : Box.Size) (unit : Int) : Box.IV :=
  let z := unit.tmod S.s2
  let unit := unit.tdiv S.s2
  let y := unit.tmod S.s1
  let unit := unit.tdiv S.s1
  ⟨unit, y, z⟩

/-- Phonon.cpp:235-240 `getUnit`; the limitation of `positiveRemainder` to 16 bits is not modelled. -/
def getUnit (S : Box.Size) (c : Box.IV) : Int :=
  (Sym.positiveRemainder c.x S.s0 * S.s1 + Sym.positiveRemainder c.y S.s1) * S.s2 + Sym.positiveRemainder c.z S.s2

/-- The gradients, by displaced mode, mode of the response, and unit cell of the response. -/
abbrev Grads (n : Nat) := Mode n → Mode n → Nat → ℝ

/-- `cis(x)`. -/
def cis (x : ℝ) : ℂ := ⟨Real.cos x, Real.sin x⟩

/-- Phonon.cpp:371-384: the phase for cell `R` and wavevector `k` (both by unit index; the order of the loops is that of `getCell`). -/
def phase (S : Box.Size) (R k : Nat) : ℂ :=
  let r := getCell S R
  let q := getCell S k
  cis (q.x * (2 * Real.pi * (1 / (S.s0 : ℝ) * r.x)) + q.y * (2 * Real.pi * (1 / (S.s1 : ℝ) * r.y)) + q.z * (2 * Real.pi * (1 / (S.s2 : ℝ) * r.z)))

/-- Phonon.cpp:352-369, 386, 390-391: the column of `Ftilde` for wavevector `k` reshaped (column by column) to a matrix. -/
def toK {n : Nat} (S : Box.Size) (F : Grads n) (k : Nat) : Matrix (Mode n) (Mode n) ℂ :=
  .of fun j i => ∑ R ∈ Finset.range (prodSup S), (F i j R : ℂ) * phase S R k

/-- matrixOperators.cpp:356-358 `dagger_symmetrize`. -/
def daggerSymm {n : Nat} (A : Matrix (Mode n) (Mode n) ℂ) : Matrix (Mode n) (Mode n) ℂ := (0.5 : ℂ) • (Aᴴ + A)

/-- Phonon.cpp:400-404 (and 509-512): `mask`. -/
def mask (n : Nat) : Matrix (Mode n) (Fin 3) ℂ := .of fun m d => if m.2 = d then 1 else 0

/-- Phonon.cpp:405 (and 513): `proj`. -/
def proj (n : Nat) : Matrix (Mode n) (Mode n) ℂ := (1 / (n : ℂ)) • (mask n * (mask n)ᴴ)

/-- Phonon.cpp:406: double sum - row sum - column sum. -/
def sums {n : Nat} (A : Matrix (Mode n) (Mode n) ℂ) : Matrix (Mode n) (Mode n) ℂ := proj n * A * proj n - A * proj n - proj n * A

/-- Phonon.cpp:393-409: the correction at one wavevector. -/
def fixK {n : Nat} (k : Nat) (Fk : Matrix (Mode n) (Mode n) ℂ) : Matrix (Mode n) (Mode n) ℂ :=
  let Fk := daggerSymm Fk
  if k = 0 then Fk + sums Fk else Fk

/-- Phonon.cpp:414-415: the inverse transform. -/
def fromK {n : Nat} (S : Box.Size) (Fk : Nat → Matrix (Mode n) (Mode n) ℂ) (i j : Mode n) (R : Nat) : ℂ :=
  (∑ k ∈ Finset.range (prodSup S), Fk k j i * star (phase S R k)) * (1 / (prodSup S : ℂ))

/-- Phonon.cpp:350-433 `dgradSymmetrize`. -/
def dgradSymmetrize {n : Nat} (S : Box.Size) (F : Grads n) : Grads n :=
  fun i j R => (fromK S (fun k => fixK k (toK S F k)) i j R).re

/-- A real matrix by modes. -/
abbrev RMat (n : Nat) := Mode n → Mode n → ℝ

/-- The force matrices, one per entry of the cell map. -/
abbrev Forces (n : Nat) := List (CellMap.Entry × RMat n)

/-- Phonon.cpp:81-103: the force matrices on the cells of the map. -/
def remap {n : Nat} (S : Box.Size) (map : List CellMap.Entry) (dgrad : Grads n) : Forces n :=
  map.map fun e => (e, fun i j => e.w i.1 j.1 * dgrad i j (getUnit S e.cell).toNat)

/-- Lattice, atoms and truncated directions. -/
structure Geom (n : Nat) where
  S : Box.Size
  R : Mat ℝ
  x : Fin n → V3 ℝ
  trunc : Fin 3 → Bool

variable {n : Nat}

/-- Phonon.cpp:448 (and 497): vector distance between atoms. -/
def dr (g : Geom n) (e : CellMap.Entry) (a b : Fin n) : V3 ℝ := mulMV g.R fun l => CellMap.toV e.cell l + g.x b l - g.x a l

/-- Phonon.cpp:449-452: `Err`. -/
def err (g : Geom n) (F : Forces n) (i j l : Fin 3) : ℝ := (F.map fun f => ∑ a, ∑ b, dr g f.1 a b l * f.2 (a, i) (b, j)).sum

/-- Phonon.cpp:455: `V`. -/
def vSum (g : Geom n) (F : Forces n) (a b : Fin n) (l : Fin 3) : ℝ := (F.map fun f => f.1.w a b * dr g f.1 a b l).sum

/-- Phonon.cpp:456: `rho`. -/
def rho (g : Geom n) (F : Forces n) : Matrix (Fin 3) (Fin 3) ℝ :=
  .of fun l l' => (F.map fun f => ∑ a, ∑ b, f.1.w a b * (dr g f.1 a b l * dr g f.1 a b l')).sum

/-- Phonon.cpp:459-469: row, column and overall means. -/
def vRow (g : Geom n) (F : Forces n) (a : Fin n) (l : Fin 3) : ℝ := ∑ b, 1 / (n : ℝ) * vSum g F a b l
@[inherit_doc vRow] def vCol (g : Geom n) (F : Forces n) (b : Fin n) (l : Fin 3) : ℝ := ∑ a, 1 / (n : ℝ) * vSum g F a b l
@[inherit_doc vRow] def vMean (g : Geom n) (F : Forces n) (l : Fin 3) : ℝ := ∑ a, ∑ b, 1 / (n : ℝ) * (1 / (n : ℝ) * vSum g F a b l)

/-- Phonon.cpp:470-477: `T`. -/
def tCorr (g : Geom n) (F : Forces n) : Matrix (Fin 3) (Fin 3) ℝ :=
  .of fun l l' => ∑ a, ∑ b, vSum g F a b l * (1 / (prodSup g.S : ℝ) * (vMean g F l' - vRow g F a l' - vCol g F b l'))

/-- Phonon.cpp:479-483: `alphaInv`. -/
def alphaInv (g : Geom n) (F : Forces n) : Matrix (Fin 3) (Fin 3) ℝ :=
  .of fun l l' => if l = l' ∧ g.trunc l = true then 1 else (rho g F + tCorr g F) l l'

/-- Phonon.cpp:484-488: `g`, given `alpha`. -/
def gTensor (alpha : Matrix (Fin 3) (Fin 3) ℝ) (g : Geom n) (F : Forces n) (i j l : Fin 3) : ℝ :=
  -(∑ l', alpha l l' * err g F i j l')

/-- Phonon.cpp:494-502: the matrix `dF` of one cell. -/
def dF (alpha : Matrix (Fin 3) (Fin 3) ℝ) (g : Geom n) (F : Forces n) (e : CellMap.Entry) : RMat n :=
  fun i j => e.w i.1 j.1 * ∑ l, dr g e i.1 j.1 l * gTensor alpha g F i.2 j.2 l

/-- Phonon.cpp:506: `dFsum`. -/
def dFsum (alpha : Matrix (Fin 3) (Fin 3) ℝ) (g : Geom n) (F : Forces n) : RMat n :=
  fun i j => (F.map fun f => dF alpha g F f.1 i j).sum

/-- Phonon.cpp:509-514: `dF0`. The matrices are real there as well; the real part takes the result back to real numbers. -/
def dF0 (alpha : Matrix (Fin 3) (Fin 3) ℝ) (g : Geom n) (F : Forces n) : RMat n :=
  fun i j => 1 / (prodSup g.S : ℝ) * (sums (.of fun i j => (dFsum alpha g F i j : ℂ)) i j).re

/-- Phonon.cpp:436-534 `forceMatrixGammaPrimeFix`. The inverse of matrix3.h:264-266 divides by the determinant: no finite result if that is zero. -/
def gammaFix (g : Geom n) (F : Forces n) : Option (Forces n) :=
  if (alphaInv g F).det = 0 then none
  else
    let alpha := (alphaInv g F)⁻¹
    some (F.map fun f => (f.1, fun i j => f.2 i j + dF alpha g F f.1 i j + dF0 alpha g F i j * f.1.w i.1 j.1))

/-- Phonon.cpp:537-559 `forceMatrixHermCheck`: the number of cells found in pairs; the assertion of line 557 stops the program. -/
def hermPairs (cells : List Box.IV) : Nat :=
  ((List.range cells.length).flatMap fun c1 => (List.range cells.length).map fun c2 =>
    match cells[c1]?, cells[c2]? with
    | some r1, some r2 =>
      if r1.x + r2.x = 0 ∧ r1.y + r2.y = 0 ∧ r1.z + r2.z = 0 ∧ c1 ≤ c2 then (if c1 = c2 then 1 else 2) else 0
    | _, _ => 0).sum

@[inherit_doc hermPairs] def hermCheck (cells : List Box.IV) : Res Unit := if hermPairs cells = cells.length then .ok () else .error .die

/-- Phonon.cpp:111-122: squared frequencies; `M` are the masses by atom (in atomic units). -/
def omegaSq (M : Fin n → ℝ) (F : Forces n) : Forces n :=
  F.map fun f => (f.1, fun i j => 1 / Real.sqrt (M i.1) * f.2 i j * (1 / Real.sqrt (M j.1)))

/-- Phonon.cpp:177-183, before `dagger_symmetrize`. -/
def omegaSqK (W : Forces n) (k : V3 ℝ) : Matrix (Mode n) (Mode n) ℂ :=
  .of fun i j => (W.map fun f => cis (2 * Real.pi * (f.1.cell.x * k 0 + f.1.cell.y * k 1 + f.1.cell.z * k 2)) * (f.2 i j : ℂ)).sum

/-- Free energy components. -/
structure Free where
  zpe : ℝ
  e : ℝ
  a : ℝ

/-- Phonon.cpp:198-205: contribution of one eigenvalue. -/
def modeFree (T w eig : ℝ) : Free :=
  if eig ≤ 0 then ⟨0, 0, 0⟩
  else
    let omega := Real.sqrt eig
    let x := Real.exp (-omega / T)
    ⟨w * (0.5 * omega), w * (0.5 * omega + omega * x / (1 - x)), w * (0.5 * omega + T * Real.log (1 - x))⟩

/-- Phonon.cpp:169-211: sum over the wavevectors, given their weights and eigenvalues. The division of the wavevectors over processes is that of
`TaskDivision`. -/
def freeEnergy (T : ℝ) (quad : List (ℝ × List ℝ)) : Free :=
  let l := quad.flatMap fun q => q.2.map fun eig => modeFree T q.1 eig
  ⟨(l.map Free.zpe).sum, (l.map Free.e).sum, (l.map Free.a).sum⟩

/-! ### Quadrature of the Brillouin zone -/

/-- Phonon.cpp:247-249: weights and abscissae. -/
def gaussW : Fin 4 → ℚ := ![0.129484966168869693270611432679082, 0.279705391489276667901467771423780, 0.381830050505118944950369775488975,
  0.417959183673469387755102040816327]
@[inherit_doc gaussW] def gaussX : Fin 4 → ℚ := ![0.949107912342758524526189684047851, 0.741531185599394439863864773280788,
  0.405845151377397166906606412076961, 0.000000000000000000000000000000000]

/-- Position `N-abs(i)` in the tables. -/
def gaussPos (i : Int) : Fin 4 := ⟨3 - i.natAbs, by omega⟩

/-- Phonon.cpp:253, `LOOP`. -/
def loopD (dim : Bool) : List Int := if dim then [-3, -2, -1, 0, 1, 2, 3] else [0]

/-- Phonon.cpp:254, `ABSCISSA`. -/
def absc (dim : Bool) (h c : ℚ) (i : Int) : ℚ := c + (if dim then h * gaussX (gaussPos i) * (if 0 < i then 1 else -1) else 0)

/-- Phonon.cpp:255, `WEIGHT`. -/
def wt (dim : Bool) (h : ℚ) (i : Int) : ℚ := if dim then h * gaussW (gaussPos i) else 1

/-- A point of the quadrature. -/
structure QPt where
  x : ℚ
  y : ℚ
  z : ℚ
  w : ℚ
deriving DecidableEq

/-- Phonon.cpp:245-272 `addQuadratureBZ_box`. -/
def box (dim : Fin 3 → Bool) (scale : ℚ) (cx cy cz : ℚ) : List QPt :=
  let h := 0.5 * scale
  (loopD (dim 0)).flatMap fun i => (loopD (dim 1)).flatMap fun j => (loopD (dim 2)).map fun k =>
    ⟨absc (dim 0) h cx i, absc (dim 1) h cy j, absc (dim 2) h cz k, wt (dim 0) h i * wt (dim 1) h j * wt (dim 2) h k⟩

/-- The loop from `-dim` to `dim`. -/
def loop1 (dim : Bool) : List Int := if dim then [-1, 0, 1] else [0]

/-- Phonon.cpp:275-283 `addQuadratureBZ_scale`. -/
def scaleBoxes (dim : Fin 3 → Bool) (scale : ℚ) : List QPt :=
  let s3 := scale / 3
  (loop1 (dim 0)).flatMap fun (x : Int) => (loop1 (dim 1)).flatMap fun (y : Int) => (loop1 (dim 2)).flatMap fun (z : Int) =>
    if x * x + y * y + z * z ≠ 0 then box dim s3 (s3 * x) (s3 * y) (s3 * z) else []

/-- Phonon.cpp:289: the loop over scales, with an upper bound on the number of steps (the loop ends long before, by `C98_quadrature`). -/
def scaleLoop (dim : Fin 3 → Bool) : Nat → ℚ → List QPt
  | 0, _ => []
  | m + 1, scale => if 1e-3 < scale then scaleBoxes dim scale ++ scaleLoop dim m (scale / 3) else []

/-- Phonon.cpp:284-292 `getQuadratureBZ`. -/
def quadratureBZ (trunc : Fin 3 → Bool) : List QPt := scaleLoop (fun j => !trunc j) 1000 1

end
end Jdftx.Phonon
