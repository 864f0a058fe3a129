import Verif.Model.Psp
import Mathlib.Data.Fintype.BigOperators

/-!
# Model of DFT+U corrections

jdftx/electronic/SpeciesInfo_energy.cpp:54-200 and Symmetries.cpp:251-277. One species, one set of orbitals (`UparamLOOP` adds up independent sets), one process. Columns of orbitals are
numbered by atom and orbital of the atom (index `atom*orbCount + orbital` in the code). Orbitals are calculated by the same function as projectors (SpeciesInfo_atomic.cpp:207-224, without
spin copies and the relativistic transformation); their model is that of `Verif.Model.Psp`. Exact arithmetic.
-/
namespace Jdftx.DftU
noncomputable section
open M3 Real
open scoped Matrix

variable {nA no nb nG nq ns : ℕ}

/-- A symmetry operation as `symmetrizeSpherical` uses it: map of atoms and rotation of the orbitals of an atom. -/
structure Op (nA no : ℕ) where
  map : Fin nA → Fin nA
  rot : Matrix (Fin no) (Fin no) ℂ

/-- One state: spin, k-point, plane waves, wavefunctions, fillings, weight. -/
structure State (nb nG ns : ℕ) where
  spin : Fin ns
  k : V3 ℝ
  iG : Fin nG → Fin 3 → Int
  C : Matrix (Fin nG) (Fin nb) ℂ
  F : Fin nb → ℝ
  w : ℝ

/-- Parameters: orbitals (radial and angular parts), their angular momentum, U-J, external potentials, `spinWeight`, symmetries. -/
structure Params (nA no : ℕ) where
  orb : Fin no → Psp.Proj
  l : ℕ
  UminusJ : ℝ
  Vext : Fin nA → ℝ
  spinWeight : ℝ
  ops : List (Op nA no)

/-- Index of a column of orbitals. -/
abbrev Ix (nA no : ℕ) := Fin nA × Fin no

/-- Arguments of the common function for orbitals and projectors. -/
def nl (p : Params nA no) (st : State nb nG ns) : Psp.Nonlocal no nb nG := ⟨p.orb, 0, none, st.k, st.iG, st.C, st.F, st.w, 0⟩

/-- SpeciesInfo_atomic.cpp:169-226 `setAtomicOrbitals`. -/
def opsi (p : Params nA no) (st : State nb nG ns) (G : Mat ℝ) (pos : Fin nA → V3 ℝ) : Matrix (Fin nG) (Ix nA no) ℂ :=
  Matrix.of fun i x => Psp.vnl (nl p st) G (pos x.1) i x.2

/-- SpeciesInfo_energy.cpp:88, 139, 157: `Opsi ^ C[q]`. -/
def proj (p : Params nA no) (st : State nb nG ns) (G : Mat ℝ) (pos : Fin nA → V3 ℝ) : Matrix (Ix nA no) (Fin nb) ℂ := (opsi p st G pos)ᴴ * st.C

/-- Fillings as a matrix. -/
def fill (st : State nb nG ns) : Matrix (Fin nb) (Fin nb) ℂ := Matrix.diagonal fun b => (st.F b : ℂ)

/-- SpeciesInfo_energy.cpp:83-90: `rho[s]`, before symmetrization. -/
def rhoRaw (p : Params nA no) (st : Fin nq → State nb nG ns) (G : Mat ℝ) (pos : Fin nA → V3 ℝ) (s : Fin ns) : Matrix (Ix nA no) (Ix nA no) ℂ :=
  ∑ q, if (st q).spin = s then ((((st q).w / p.spinWeight : ℝ) : ℂ)) • (proj p (st q) G pos * fill (st q) * (proj p (st q) G pos)ᴴ) else 0

/-- Symmetries.cpp:268-272: the transformation matrix of an operation. -/
def transform (o : Op nA no) : Matrix (Ix nA no) (Ix nA no) ℂ := Matrix.of fun x y => if x.1 = o.map y.1 then o.rot x.2 y.2 else 0

/-- Symmetries.cpp:263-276 `symmetrizeSpherical`. -/
def symmetrize (p : Params nA no) (X : Matrix (Ix nA no) (Ix nA no) ℂ) : Matrix (Ix nA no) (Ix nA no) ℂ :=
  if p.l = 0 ∨ p.ops.length = 1 then X
  else ((1 / (p.ops.length : ℝ) : ℝ) : ℂ) • (p.ops.map fun o => transform o * X * (transform o)ᴴ).sum

/-- SpeciesInfo_energy.cpp:98-99: the block of an atom. -/
def block (X : Matrix (Ix nA no) (Ix nA no) ℂ) (a : Fin nA) : Matrix (Fin no) (Fin no) ℂ := Matrix.of fun o o' => X (a, o) (a, o')

/-- SpeciesInfo_energy.cpp:78-103 `rhoAtom_calc`. -/
def rhoAtom (p : Params nA no) (st : Fin nq → State nb nG ns) (G : Mat ℝ) (pos : Fin nA → V3 ℝ) (s : Fin ns) (a : Fin nA) : Matrix (Fin no) (Fin no) ℂ :=
  block (symmetrize p (rhoRaw p st G pos s)) a

/-- SpeciesInfo_energy.cpp:109: `Uprefac`. -/
def Uprefac (p : Params nA no) : ℝ := 0.5 * p.UminusJ * p.spinWeight

/-- SpeciesInfo_energy.cpp:113: `VextPrefac`. -/
def VextPrefac (p : Params nA no) (a : Fin nA) : ℝ := p.Vext a * p.spinWeight

/-- SpeciesInfo_energy.cpp:105-119 `rhoAtom_computeU`: the energy. -/
def energyU (p : Params nA no) (rho : Fin ns → Fin nA → Matrix (Fin no) (Fin no) ℂ) : ℝ :=
  ∑ s, ∑ a, (Matrix.trace (((VextPrefac p a + Uprefac p : ℝ) : ℂ) • rho s a - ((Uprefac p : ℝ) : ℂ) • (rho s a * rho s a))).re

/-- SpeciesInfo_energy.cpp:115: `U_rhoAtom`. -/
def gradU (p : Params nA no) (a : Fin nA) (rho : Matrix (Fin no) (Fin no) ℂ) : Matrix (Fin no) (Fin no) ℂ :=
  ((VextPrefac p a + Uprefac p : ℝ) : ℂ) • 1 - ((2 * Uprefac p : ℝ) : ℂ) • rho

/-- SpeciesInfo_energy.cpp:122-129 `U_rho_PACK`. -/
def pack (U : Fin nA → Matrix (Fin no) (Fin no) ℂ) : Matrix (Ix nA no) (Ix nA no) ℂ := Matrix.of fun x y => if x.1 = y.1 then U x.1 x.2 y.2 else 0

/-- SpeciesInfo_energy.cpp:131-142 `rhoAtom_grad`: what is added to `HCq`. -/
def hC (p : Params nA no) (st : State nb nG ns) (G : Mat ℝ) (pos : Fin nA → V3 ℝ) (U : Fin ns → Fin nA → Matrix (Fin no) (Fin no) ℂ) : Matrix (Fin nG) (Fin nb) ℂ :=
  ((1 / p.spinWeight : ℝ) : ℂ) • (opsi p st G pos * (pack (U st.spin) * ((opsi p st G pos)ᴴ * st.C)))

/-- `D(Opsi,k)` (ColumnBundleOperators_internal.h:88-94). -/
def dOpsi (p : Params nA no) (st : State nb nG ns) (G : Mat ℝ) (pos : Fin nA → V3 ℝ) (k : Fin 3) : Matrix (Fin nG) (Ix nA no) ℂ :=
  Matrix.of fun i x => Psp.dVnl (nl p st) G (pos x.1) k i x.2

/-- SpeciesInfo_energy.cpp:159-160: `fCartMat[k]`; `diag` keeps the real part. -/
def fCartMat (p : Params nA no) (st : State nb nG ns) (G : Mat ℝ) (pos : Fin nA → V3 ℝ) (U : Fin ns → Fin nA → Matrix (Fin no) (Fin no) ℂ) (k : Fin 3) (x : Ix nA no) : ℝ :=
  (1 / p.spinWeight) * ((pack (U st.spin) * proj p st G pos * fill st * (st.Cᴴ * dOpsi p st G pos k)) x x).re

/-- SpeciesInfo_energy.cpp:147-167 `rhoAtom_forces`: force on an atom. -/
def force (p : Params nA no) (st : Fin nq → State nb nG ns) (R : Mat ℝ) (pos : Fin nA → V3 ℝ) (U : Fin ns → Fin nA → Matrix (Fin no) (Fin no) ℂ) (a : Fin nA) : V3 ℝ := fun j =>
  ∑ q, 2 * (st q).w * mulMV (M3.transpose R) (fun k => ∑ o, fCartMat p (st q) (Basis.G R) pos U k (a, o)) j

/-- SpeciesInfo_energy.cpp:172: orbitals with a component of the strain derivative. -/
def opsiStress (p : Params nA no) (st : State nb nG ns) (G : Mat ℝ) (pos : Fin nA → V3 ℝ) (i j : Fin 3) : Matrix (Fin nG) (Ix nA no) ℂ :=
  Matrix.of fun m x => Psp.vnlStress (nl p st) G (pos x.1) i j m x.2

/-- SpeciesInfo_energy.cpp:173-174: `EU_RRT_ij`. -/
def stressIJ (p : Params nA no) (st : State nb nG ns) (R : Mat ℝ) (pos : Fin nA → V3 ℝ) (U : Fin ns → Fin nA → Matrix (Fin no) (Fin no) ℂ) (i j : Fin 3) : ℝ :=
  (2 * st.w / p.spinWeight) * (Matrix.trace (pack (U st.spin) * proj p st (Basis.G R) pos * fill st * (st.Cᴴ * opsiStress p st (Basis.G R) pos i j))).re

/-- SpeciesInfo_energy.cpp:166-178: stress of one state added. -/
def addStress (p : Params nA no) (st : State nb nG ns) (R : Mat ℝ) (pos : Fin nA → V3 ℝ) (U : Fin ns → Fin nA → Matrix (Fin no) (Fin no) ℂ) (m : Mat ℝ) : Mat ℝ :=
  Psp.rrtIndex.foldl (fun m ij =>
    let v := stressIJ p st R pos U ij.1 ij.2
    let m := Psp.addEntry m ij.1 ij.2 v
    if ij.1 ≠ ij.2 then Psp.addEntry m ij.2 ij.1 v else m) m

/-- SpeciesInfo_energy.cpp:147-181 `rhoAtom_forces`: stress. -/
def stress (p : Params nA no) (st : Fin nq → State nb nG ns) (R : Mat ℝ) (pos : Fin nA → V3 ℝ) (U : Fin ns → Fin nA → Matrix (Fin no) (Fin no) ℂ) : Mat ℝ :=
  (List.finRange nq).foldl (fun m q => addStress p (st q) R pos U m) (fun _ _ => 0)

end
end Jdftx.DftU
