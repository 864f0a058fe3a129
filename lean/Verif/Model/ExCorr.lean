import Verif.Model.SpinDiag
import Verif.Model.BoxField
import Verif.Model.TaskDivision
import Mathlib.Analysis.SpecialFunctions.Complex.Circle

/-!
# Model of the assembly of the exchange-correlation energy and potentials (jdftx/electronic/ExCorr.cpp:624-914)

Exact arithmetic. Fields are functions of the grid index. Functionals are parameters: each gives, at one point, an energy
density and its partial derivatives. Simplifications: LibXC functionals are not modelled; the model computes gradients,
Laplacians and kinetic energy densities whether or not some functional asks for them (a functional that does not depend on
them has zero derivatives, which then add nothing); the stress output is not modelled.
-/
namespace Jdftx.ExCorr
open Box SpinDiag
open scoped ComplexConjugate
noncomputable section

/-- A real field: value at grid index `j < nr`. -/
abbrev Field := Nat → ℝ

/-- The parts of GridInfo used here. -/
structure Grid where
  S : Size
  G : Fin 3 → Fin 3 → ℝ
  detR : ℝ
  dV : ℝ

/-! ### Fourier transforms (core/Operators.cpp:128-216) -/

/-- The phase factor of reciprocal lattice vector number `i` (of the half space) at grid point number `j`. -/
def chi (S : Size) (i j : Nat) : ℂ :=
  Complex.exp (2 * Real.pi * Complex.I * ((hStart S i).x * (rStart S j).x / S.s0 + (hStart S i).y * (rStart S j).y / S.s1
    + (hStart S i).z * (rStart S j).z / S.s2))

/-- How many times an element of the half space counts in a transform to real fields. -/
def weight (S : Size) (i : Nat) : ℝ := if (hStart S i).z = 0 ∨ 2 * (hStart S i).z = S.s2 then 1 else 2

/-- Operators.cpp:128-141 `I`: complex-to-real transform, by its mathematical definition (the library that performs it is
not modelled). Imaginary parts that would have no counterpart are dropped, as the library does. -/
def fftI (S : Size) (X : Arr) : Field := fun j => ∑ i ∈ Finset.range (nG S), weight S i * (X i * chi S i j).re

/-- Operators.cpp:170-182 `Idag`: real-to-complex transform. -/
def Idag (S : Size) (f : Field) : Arr := fun i => ∑ j ∈ Finset.range (nr S), (f j : ℂ) * conj (chi S i.toNat j)

/-- Operators.cpp:208 `J`. -/
def fftJ (S : Size) (f : Field) : Arr := fun i => (1 / (nr S : ℝ) : ℝ) * Idag S f i

/-- Operators.cpp:213 `Jdag`. -/
def Jdag (S : Size) (X : Arr) : Field := fun j => 1 / (nr S : ℝ) * fftI S X j

/-- Operators_internal.h:99-102, Operators.cpp:394-410 `D`. -/
def opD (g : Grid) (X : Arr) (k : Fin 3) : Arr := fun i => X i * (⟨0, gvec g.G (hStart g.S i.toNat) k⟩ : ℂ)

/-- Operators.cpp:225-240 `L`. -/
def opL (g : Grid) (X : Arr) : Arr := fun i =>
  X i * ((-g.detR * ∑ k, gvec g.G (hStart g.S i.toNat) k ^ 2 : ℝ) : ℂ)

/-! ### Spin modes -/

/-- The number of densities passed in decides how they are treated (ExCorr.cpp:630-631). -/
inductive Mode
  | unpolarized | polarized | noncollinear
  deriving DecidableEq

/-- `nInCount`. -/
abbrev nIn : Mode → Nat
  | .unpolarized => 1 | .polarized => 2 | .noncollinear => 4

/-- ExCorr.cpp:631: `nCount`. -/
abbrev nCount : Mode → Nat
  | .unpolarized => 1 | .polarized => 2 | .noncollinear => 2

/-- ExCorr.cpp:696-725: transformation of `x` to the spin-diagonal basis of `n`, at one point; nothing is done unless
`nCount != nInCount`. -/
def toDiag : (m : Mode) → (n x : Fin (nIn m) → ℝ) → Fin (nCount m) → ℝ
  | .unpolarized, _, x => x
  | .polarized, _, x => x
  | .noncollinear, n, x => diagonalize n x

/-- ExCorr.cpp:832-852, 887-891: what the gradient propagation adds to the gradient with respect to `n`. -/
def backN : (m : Mode) → (n x : Fin (nIn m) → ℝ) → (E : Fin (nCount m) → ℝ) → Fin (nIn m) → ℝ
  | .unpolarized, _, _, _ => fun _ => 0
  | .polarized, _, _, _ => fun _ => 0
  | .noncollinear, n, x, E => (diagonalizeGrad n x E (fun _ => 0) (fun _ => 0)).1

/-- ExCorr.cpp:832-852, 887-891: the gradient with respect to `x`. -/
def backX : (m : Mode) → (n x : Fin (nIn m) → ℝ) → (E : Fin (nCount m) → ℝ) → Fin (nIn m) → ℝ
  | .unpolarized, _, _, E => E
  | .polarized, _, _, E => E
  | .noncollinear, n, x, E => (diagonalizeGrad n x E (fun _ => 0) (fun _ => 0)).2

/-- ExCorr.cpp:834-836: gradient with respect to the density, where `x` is `n` and one array collects both parts. -/
def backSelf : (m : Mode) → (n : Fin (nIn m) → ℝ) → (E : Fin (nCount m) → ℝ) → Fin (nIn m) → ℝ
  | .unpolarized, _, E => E
  | .polarized, _, E => E
  | .noncollinear, n, E => diagonalizeGradSelf n E fun _ => 0

/-! ### Functionals -/

/-- Arguments of a functional at one point for `k` spins; `sigma` is indexed by `s1+s2` (one or three are used). -/
structure Pt (k : Nat) where
  n : Fin k → ℝ
  sigma : Fin 3 → ℝ
  lap : Fin k → ℝ
  tau : Fin k → ℝ

/-- A functional (ExCorr_internal.h:43-81 `Functional::evaluate`) at one point: what it adds to `E`, and to `E_n`,
`E_sigma`, `E_lap` and `E_tau`. -/
structure Fn (k : Nat) where
  e : Pt k → ℝ
  grad : Pt k → Pt k

/-- One process's share: ExCorr.cpp:668 (directions), GridInfo.cpp:259 (points); `TaskDivision::myRange`. -/
def mine (N P p i : Nat) : Bool :=
  match TaskDiv.init N P p with
  | some td => td.isMine i
  | none => false

/-- `allReduce(..., ReduceSum)` over `P` processes. -/
def allReduce (P : Nat) (x : Nat → ℝ) : ℝ := ∑ p ∈ Finset.range P, x p

section
variable (g : Grid) (m : Mode)

/-- ExCorr.cpp:671-674: gradient of one density. -/
def spatialD (f : Field) (k : Fin 3) : Field := fftI g.S (opD g (fftJ g.S f) k)

/-- ExCorr.cpp:681-682: Laplacian of one density. -/
def laplacian (f : Field) : Field := fun j => 1 / g.detR * fftI g.S (opL g (fftJ g.S f)) j

/-- Values of all densities at one point. -/
def at' {K : Nat} (n : Fin K → Field) (j : Nat) : Fin K → ℝ := fun s => n s j

/-- ExCorr.cpp:671-674, 709-713: `Dn[.][k]` at a point, in the spin-diagonal basis. -/
def DnAt (n : Fin (nIn m) → Field) (k : Fin 3) (j : Nat) : Fin (nCount m) → ℝ :=
  toDiag m (at' n j) fun s => spatialD g (n s) k j

/-- ExCorr.cpp:735-738: contribution of one direction to `sigma[q]`. -/
def sigmaTerm {k : Nat} (D : Fin k → ℝ) (q : Fin 3) : ℝ :=
  ∑ s1, ∑ s2, if s1 ≤ s2 ∧ s1.val + s2.val = q.val then D s1 * D s2 else 0

/-- ExCorr.cpp:733-742: `sigma[q]` at a point, after collecting over processes. -/
def sigmaAt (P : Nat) (n : Fin (nIn m) → Field) (q : Fin 3) (j : Nat) : ℝ :=
  allReduce P fun p => ∑ k : Fin 3, if mine 3 P p k then sigmaTerm (DnAt g m n k j) q else 0

/-- ExCorr.cpp:676-730: the arguments of the functionals at a point; negative densities are capped to 0. -/
def ptAt (P : Nat) (n tau : Fin (nIn m) → Field) (j : Nat) : Pt (nCount m) where
  n := fun s => max (toDiag m (at' n j) (at' n j) s) 0
  sigma := fun q => sigmaAt g m P n q j
  lap := toDiag m (at' n j) fun s => laplacian g (n s) j
  tau := toDiag m (at' n j) (at' tau j)

/-- ExCorr.cpp:798-822: the energy; every process evaluates its share of the points and integrates. -/
def energy (fs : List (Fn (nCount m))) (P : Nat) (n tau : Fin (nIn m) → Field) : ℝ :=
  allReduce P fun p => g.dV * ∑ j ∈ Finset.range (nr g.S),
    if mine (nr g.S) P p j then (fs.map fun f => f.e (ptAt g m P n tau j)).sum else 0

/-- ExCorr.cpp:798-826: a derivative, accumulated over functionals and collected over processes. -/
def collected (fs : List (Fn (nCount m))) (P : Nat) (n tau : Fin (nIn m) → Field) (c : Pt (nCount m) → ℝ) (j : Nat) : ℝ :=
  allReduce P fun p => if mine (nr g.S) P p j then (fs.map fun f => c (f.grad (ptAt g m P n tau j))).sum else 0

/-- `E_n`, ExCorr.cpp:823. -/
def E_n (fs : List (Fn (nCount m))) (P : Nat) (n tau : Fin (nIn m) → Field) (j : Nat) : Fin (nCount m) → ℝ :=
  fun s => collected g m fs P n tau (fun x => x.n s) j
/-- `E_sigma`, ExCorr.cpp:824. -/
def E_sigma (fs : List (Fn (nCount m))) (P : Nat) (n tau : Fin (nIn m) → Field) (j : Nat) : Fin 3 → ℝ :=
  fun q => collected g m fs P n tau (fun x => x.sigma q) j
/-- `E_lap`, ExCorr.cpp:825. -/
def E_lap (fs : List (Fn (nCount m))) (P : Nat) (n tau : Fin (nIn m) → Field) (j : Nat) : Fin (nCount m) → ℝ :=
  fun s => collected g m fs P n tau (fun x => x.lap s) j
/-- `E_tau`, ExCorr.cpp:826. -/
def E_tau (fs : List (Fn (nCount m))) (P : Nat) (n tau : Fin (nIn m) → Field) (j : Nat) : Fin (nCount m) → ℝ :=
  fun s => collected g m fs P n tau (fun x => x.tau s) j

/-- ExCorr.cpp:876-885: `E_Dni[s]` at a point, from the contraction. -/
def E_Dn {k : Nat} (E_sigma : Fin 3 → ℝ) (D : Fin k → ℝ) (s : Fin k) : ℝ :=
  ∑ s1, ∑ s2, if s1 ≤ s2 then
      let E := E_sigma (Fin.ofNat 3 (s1.val + s2.val))
      if s1 = s2 then (if s = s1 then 2 * (E * D s1) else 0)
      else (if s = s1 then E * D s2 else 0) + (if s = s2 then E * D s1 else 0)
    else 0

/-- `E_Dni` at a point. -/
def E_DnAt (fs : List (Fn (nCount m))) (P : Nat) (n tau : Fin (nIn m) → Field) (k : Fin 3) (j : Nat) : Fin (nCount m) → ℝ :=
  E_Dn (E_sigma g m fs P n tau j) (DnAt g m n k j)

/-- ExCorr.cpp:893-894, 905-909: the Fourier-space part of the potential, `Jdag(E_nTilde[s])` after collecting over
processes. -/
def gradPart (fs : List (Fn (nCount m))) (P : Nat) (n tau : Fin (nIn m) → Field) (s : Fin (nIn m)) : Field :=
  Jdag g.S fun i => ∑ p ∈ Finset.range P, ∑ k : Fin 3, if mine 3 P p k then
    - opD g (Idag g.S fun j => backX m (at' n j) (fun s => spatialD g (n s) k j) (E_DnAt g m fs P n tau k j) s) k i else 0

/-- ExCorr.cpp:830-914: the potential returned on process `p`. The sum over directions in the fifth term is what
`spinDiagonalizeGrad` adds to `E_n` inside the loop over this process's directions (ExCorr.cpp:889); it is not collected. -/
def Vxc (fs : List (Fn (nCount m))) (P p : Nat) (n tau : Fin (nIn m) → Field) (s : Fin (nIn m)) (j : Nat) : ℝ :=
  backSelf m (at' n j) (E_n g m fs P n tau j) s
    + backN m (at' n j) (at' tau j) (E_tau g m fs P n tau j) s
    + backN m (at' n j) (fun s => laplacian g (n s) j) (E_lap g m fs P n tau j) s
    + Jdag g.S (fun i => (1 / g.detR : ℝ) * opL g (Idag g.S fun j => backX m (at' n j) (fun s => laplacian g (n s) j)
        (E_lap g m fs P n tau j) s) i) j
    + (∑ k : Fin 3, if mine 3 P p k then backN m (at' n j) (fun s => spatialD g (n s) k j) (E_DnAt g m fs P n tau k j) s else 0)
    + gradPart g m fs P n tau s j

/-- ExCorr.cpp:839-844, 915: the potential for the kinetic energy density. -/
def Vtau (fs : List (Fn (nCount m))) (P : Nat) (n tau : Fin (nIn m) → Field) (s : Fin (nIn m)) (j : Nat) : ℝ :=
  backX m (at' n j) (at' tau j) (E_tau g m fs P n tau j) s

end
end
end Jdftx.ExCorr
