import Verif.Model.Box
import Verif.Model.BoxField
import Verif.Model.SpaceGroup
import Mathlib.Analysis.SpecialFunctions.Complex.Circle

/-!
# Model of symmetrisation

`Symmetries::initSymmIndex` (jdftx/electronic/Symmetries.cpp:528-583), the kernel `eblas_symmetrize_phase_calc`
(jdftx/core/BlasExtra_internal.h:76-85) and its loop over classes (jdftx/core/BlasExtra.cpp:150-157), symmetrisation of forces
(Symmetries.cpp:227-238) and of Cartesian tensors (Symmetries.cpp:240-248), and the grid check (Symmetries.cpp:594-609).

Arithmetic is exact. The flat arrays `symmIndex`, `symmIndexPhase`, `symmMult` are kept as one list of classes; the classes are
processed in order (the code divides them over threads; they touch disjoint elements).
-/
namespace Jdftx.Sym
open Jdftx.M3 Jdftx.Box
open scoped ComplexConjugate
noncomputable section

/-- core/Util.h:182-186 `positiveRemainder`, with the truncated remainder of C. The code works in 16-bit integers; here the
integers are unbounded. -/
def positiveRemainder (x y : Int) : Int :=
  let result := x.tmod y
  if result < 0 then result + y else result

/-- Conversion of grid coordinates to `vector3<int>`. -/
def toV3 (v : IV) : V3 Int := vec v.x v.y v.z

/-- Symmetries.cpp:545, 547-550: index of the image of `iG`. -/
def target (S : Size) (op : Op ℝ) (iG : IV) : Int :=
  let g := mulVM (toV3 iG) op.rot
  fullRindex S ⟨positiveRemainder (g 0) S.s0, positiveRemainder (g 1) S.s1, positiveRemainder (g 2) S.s2⟩

/-- Symmetries.cpp:546: `cis((-2*M_PI)*dot(iG,op.a))`. -/
def phase (op : Op ℝ) (iG : IV) : ℂ :=
  Complex.exp (((-2 * Real.pi) * dot (fun k => ((toV3 iG k : Int) : ℝ)) op.a : ℝ) * Complex.I)

/-- One equivalence class: multiplicity, indices and phases. -/
abbrev Class := Nat × List (Int × ℂ)

/-- Symmetries.cpp:544-554: images of one point in the order of the operations. -/
def entries (S : Size) (sym : List (Op ℝ)) (iG : IV) : List (Int × ℂ) := sym.map fun op => (target S op iG, phase op iG)

open Classical in
/-- Symmetries.cpp:541-565: body of the loop; `done` holds the indices already reached, `nSym` is `sym.size()`. -/
def buildClasses (entries : IV → List (Int × ℂ)) (nSym : Nat) : List (Nat × IV) → List Int → Res (List Class)
  | [], _ => .ok []
  | (i, iG) :: rest, done =>
    if (i : Int) ∈ done then buildClasses entries nSym rest done
    else
      let es := entries iG
      let orbit := (es.map Prod.fst).dedup
      let multiplicity := nSym / orbit.length
      if multiplicity * orbit.length ≠ nSym then .error .die
      else match buildClasses entries nSym rest (es.map Prod.fst ++ done) with
        | .error e => .error e
        | .ok cs => .ok ((multiplicity, es) :: cs)

/-- Symmetries.cpp:528-565 `initSymmIndex`: the classes. -/
def initSymmIndex (S : Size) (sym : List (Op ℝ)) : Res (List Class) :=
  match gLoop S (nr S) 0 (nr S) with
  | .error e => .error e
  | .ok l => buildClasses (entries S sym) sym.length l []

/-- BlasExtra_internal.h:76-85 `eblas_symmetrize_phase_calc`. -/
def symmetrizeClass (n : Nat) (c : Class) (x : Arr) : Arr :=
  let xSum := c.2.foldl (fun s e => s + x e.1 * e.2) 0
  let xSum := xSum * (1 / ((n : ℂ) * (c.1 : ℂ)))
  let x := c.2.foldl (fun x e => Function.update x e.1 0) x
  c.2.foldl (fun x e => Function.update x e.1 (x e.1 + xSum * conj e.2)) x

/-- BlasExtra.cpp:150-157, Symmetries.cpp:178-182 `symmetrize(complexScalarFieldTilde)`. -/
def symmetrize (nSym : Nat) (classes : List Class) (x : Arr) : Arr :=
  if nSym = 1 then x else classes.foldl (fun x c => symmetrizeClass nSym c x) x

/-- Symmetries.cpp:594-609 `checkFFTbox`: whether the grid passes for this rotation. -/
def boxOk (S : V3 Int) (rot : Mat Int) : Bool :=
  (List.finRange 3).all fun i => (List.finRange 3).all fun j => decide ((mulMM (diag (S 0) (S 1) (S 2)) rot i j).tmod (S j) = 0)

/-- Symmetries.cpp:227-238: symmetrisation of the forces of one species; `atomMap atom iRot`. -/
def symmetrizeForces {K : Type} [Field K] (sym : List (Op K)) (atomMap : Nat → Nat → Nat) (f : Nat → V3 K) : Nat → V3 K :=
  if sym.length ≤ 1 then f
  else fun atom => fun k =>
    ((sym.zipIdx.map fun p => mulMV (transpose (castMat p.1.rot)) (f (atomMap atom p.2)) k).foldl (· + ·) 0) / (sym.length : K)

/-- Symmetries.cpp:240-248: symmetrisation of a Cartesian tensor. -/
def symmetrizeTensor {K : Type} [Field K] (R invR : Mat K) (sym : List (Op K)) (m : Mat K) : Mat K :=
  fun i j => (1 / (sym.length : K)) * ((sym.map fun op =>
    let rot := mulMM (mulMM R (castMat op.rot)) invR
    mulMM (mulMM rot m) (transpose rot) i j).foldl (· + ·) 0)

end
end Jdftx.Sym
