import Verif.Model.CavityGrid
import Mathlib.Analysis.SpecialFunctions.Pow.Real
import Mathlib.Analysis.SpecialFunctions.Trigonometric.Arctan

/-!
# Model of the excess free energies of classical fluids
(jdftx/fluid/MixedFMT_internal.h, MixedFMT.cpp, Fex_ScalarEOS*, Fex_H2O_FittedCorrelations*, Fex_LJ.cpp, Fex_H2O_BondedVoids.cpp, FluidMixtureCompute.cpp)

Exact real arithmetic; `none` stands for a result that is not a number. Grids and Fourier transforms as in `Model.ExCorr`. A kernel (`RadialFunctionG`) is given by
its value at each reciprocal lattice vector; entry 0 is its value at zero. Interpolation of kernels from their table is not modelled, nor are the ideal gas,
the Coulomb interaction, and the constraints on particle numbers.
-/
namespace Jdftx.Fluid
open Box ExCorr Cavity
noncomputable section

/-! ### Hard spheres at one point (MixedFMT_internal.h) -/

/-- The weighted densities at one point, and the derivatives with respect to them. -/
structure Fmt where
  n0 : ℝ
  n1 : ℝ
  n2 : ℝ
  n3 : ℝ
  n1v : Fin 3 → ℝ
  n2v : Fin 3 → ℝ
  n2m : Tensor ℝ

/-- tensor3.h:85 `operator+`. -/
def tadd (a b : Tensor ℝ) : Tensor ℝ := ⟨a.xy + b.xy, a.yz + b.yz, a.zx + b.zx, a.xxr + b.xxr, a.yyr + b.yyr⟩

/-- Lines 59-62 `mul_vTmv`. -/
def mulVTmv (m : Tensor ℝ) (v : Fin 3 → ℝ) : ℝ :=
  2 * (m.xy * v 0 * v 1 + m.yz * v 1 * v 2 + m.zx * v 2 * v 0) + m.xxr * v 0 * v 0 + m.yyr * v 1 * v 1 - (m.xxr + m.yyr) * v 2 * v 2

/-- Lines 64-74 `mul_vTmv_grad`: what is added to `grad_m`. -/
def mulVTmv_m (g : ℝ) (v : Fin 3 → ℝ) : Tensor ℝ :=
  ⟨2 * g * v 0 * v 1, 2 * g * v 1 * v 2, 2 * g * v 2 * v 0, g * (v 0 * v 0 - v 2 * v 2), g * (v 1 * v 1 - v 2 * v 2)⟩

/-- Lines 64-74 `mul_vTmv_grad`: what is added to `grad_v`. -/
def mulVTmv_v (g : ℝ) (m : Tensor ℝ) (v : Fin 3 → ℝ) : Fin 3 → ℝ :=
  ![2 * g * (m.xy * v 1 + m.zx * v 2 + m.xxr * v 0), 2 * g * (m.xy * v 0 + m.yz * v 2 + m.yyr * v 1),
    2 * g * (m.yz * v 1 + m.zx * v 0 - (m.xxr + m.yyr) * v 2)]

/-- Lines 78-80 `trace_cubed`. -/
def traceCubed (m : Tensor ℝ) : ℝ :=
  -3 * (-2 * m.xy * m.yz * m.zx + m.yz ^ 2 * m.xxr - m.xy ^ 2 * (m.xxr + m.yyr) + m.yyr * (m.zx ^ 2 + m.xxr * (m.xxr + m.yyr)))

/-- Lines 82-88 `trace_cubed_grad`. -/
def traceCubed_m (g : ℝ) (m : Tensor ℝ) : Tensor ℝ :=
  ⟨6 * g * (m.yz * m.zx + m.xy * (m.xxr + m.yyr)), 6 * g * (m.xy * m.zx - m.yz * m.xxr), 6 * g * (m.xy * m.yz - m.zx * m.yyr),
    -3 * g * (-m.xy ^ 2 + m.yz ^ 2 + m.yyr * (2 * m.xxr + m.yyr)), -3 * g * (-m.xy ^ 2 + m.zx ^ 2 + m.xxr * (m.xxr + 2 * m.yyr))⟩

/-- Lines 91-100 `WB_f2`: the value. -/
def wbF2 (x : ℝ) : ℝ :=
  if x < 0.002 then 1 + x * x * (1 / 9 + x * (1 / 18 + x * (1 / 30)))
  else 1 + (1 / 3) * (2 - x + 2 * (1 - x) * Real.log (1 - x) / x)

/-- Lines 91-100 `WB_f2`: the derivative. -/
def wbF2' (x : ℝ) : ℝ :=
  if x < 0.002 then x * (2 / 9 + x * (3 / 18 + x * (4 / 30)))
  else (-1 / 3) * (x * (2 + x) + 2 * Real.log (1 - x)) / (x * x)

/-- Lines 103-112 `WB_f3`: the value. -/
def wbF3 (x : ℝ) : ℝ :=
  if x < 0.005 then 1 + x * (-4 / 9 + x * (1 / 18 + x * (1 / 45 + x * (1 / 90))))
  else 1 - (x * (2 + x * (-3 + x * 2)) + 2 * (1 - x) * (1 - x) * Real.log (1 - x)) / (3 * x * x)

/-- Lines 103-112 `WB_f3`: the derivative. -/
def wbF3' (x : ℝ) : ℝ :=
  if x < 0.005 then -4 / 9 + x * (2 / 18 + x * (3 / 45 + x * (4 / 90)))
  else 2 * (1 - x) * (x * (2 + x) + 2 * Real.log (1 - x)) / (3 * x * x * x)

/-- Line 129. -/
def tensorPart (x : Fmt) : ℝ := mulVTmv x.n2m x.n2v - 0.5 * traceCubed x.n2m

/-- Line 135: `comb2`. -/
def comb2 (x : Fmt) : ℝ := x.n1 * x.n2 - dot3 x.n1v x.n2v

/-- Line 136: `comb3`. -/
def comb3 (x : Fmt) : ℝ := x.n2 * (x.n2 * x.n2 - 3 * dot3 x.n2v x.n2v) + 9 * tensorPart x

/-- Line 133. -/
def pole (n3 : ℝ) : ℝ := 1 / (1 - n3)

/-- Line 137. -/
def phiVal (x : Fmt) : ℝ :=
  x.n0 * Real.log (pole x.n3)
    + pole x.n3 * (wbF2 x.n3 * comb2 x + pole x.n3 * ((1 / (24 * Real.pi)) * wbF3 x.n3 * comb3 x))

/-- Lines 138-149: the derivatives. -/
def phiGrad (x : Fmt) : Fmt :=
  let p := pole x.n3
  let f2 := wbF2 x.n3
  let f3 := wbF3 x.n3
  let n2vsq := dot3 x.n2v x.n2v
  let pt := p * p * f3 * (9 / (24 * Real.pi))
  { n0 := Real.log p
    n1 := p * (f2 * x.n2)
    n2 := p * (f2 * x.n1 + p * ((1 / (8 * Real.pi)) * f3 * (x.n2 * x.n2 - n2vsq)))
    n3 := p * (x.n0 + p * (f2 * comb2 x + p * ((1 / (12 * Real.pi)) * f3 * comb3 x)))
      + p * (wbF2' x.n3 * comb2 x + p * ((1 / (24 * Real.pi)) * wbF3' x.n3 * comb3 x))
    n1v := fun k => (-p * f2) * x.n2v k
    n2v := fun k => (-p) * (f2 * x.n1v k + (p * f3 * x.n2 / (4 * Real.pi)) * x.n2v k) + mulVTmv_v pt x.n2m x.n2v k
    n2m := tadd (mulVTmv_m pt x.n2v) (traceCubed_m (-0.5 * pt) x.n2m) }

/-- The derivatives where nothing is added. -/
def Fmt.zero : Fmt := ⟨0, 0, 0, 0, fun _ => 0, fun _ => 0, ⟨0, 0, 0, 0, 0⟩⟩

/-- Lines 115-158 `phiFMT_calc`: the value, and what is added to the gradients. -/
def phiFmt (x : Fmt) : Option (ℝ × Fmt) :=
  open Classical in
  if x.n0 < 0 ∨ x.n1 < 0 ∨ x.n2 < 0 ∨ x.n3 < 0 then some (0, Fmt.zero)
  else if x.n3 ≥ 1 then none
  else some (phiVal x, phiGrad x)

/-! ### Bonds at one point (MixedFMT_internal.h:161-196) -/

/-- The weighted densities at one point, and the derivatives with respect to them. -/
structure Bnd where
  n0 : ℝ
  n2 : ℝ
  n3 : ℝ
  n2v : Fin 3 → ℝ

/-- Line 173. -/
def zeta (n2 n2vsq : ℝ) : ℝ := open Classical in if n2 ≤ 0 ∨ n2vsq > n2 * n2 then 0 else 1 - n2vsq / (n2 * n2)

/-- Line 177. -/
def gContact (Rhm : ℝ) (x : Bnd) : ℝ :=
  pole x.n3 * (1 + zeta x.n2 (dot3 x.n2v x.n2v) * pole x.n3 * (Rhm * x.n2 + pole x.n3 * (2 / 9) * (Rhm * x.n2) ^ 2))

/-- Lines 174-191: the derivatives. -/
def bondGrad (Rhm scale : ℝ) (x : Bnd) : Bnd :=
  open Classical in
  let p := pole x.n3
  let n2vsq := dot3 x.n2v x.n2v
  let z := zeta x.n2 n2vsq
  let z_n2 := if z ≠ 0 then 2 * n2vsq / (x.n2 * x.n2 * x.n2) else 0
  let z_n2v : Fin 3 → ℝ := fun k => if z ≠ 0 then (-2 / (x.n2 * x.n2)) * x.n2v k else 0
  let g := gContact Rhm x
  let g_n2 := z * p ^ 2 * (Rhm + p * (4 / 9) * Rhm ^ 2 * x.n2)
  let g_n3 := p ^ 2 * (1 + z * p * (2 * Rhm * x.n2 + p * (6 / 9) * (Rhm * x.n2) ^ 2))
  let g_z := p ^ 2 * (Rhm * x.n2 + p * (2 / 9) * (Rhm * x.n2) ^ 2)
  let phi_z := -scale * x.n0 * g_z / g
  { n0 := -scale * Real.log g
    n2 := -scale * x.n0 * g_n2 / g + phi_z * z_n2
    n3 := -scale * x.n0 * g_n3 / g
    n2v := fun k => phi_z * z_n2v k }

/-- Lines 161-196 `phiBond_calc`. The logarithm of a number that is not positive, and the pole at `n3 = 1`, do not give a number. -/
def phiBond (Rhm scale : ℝ) (x : Bnd) : Option (ℝ × Bnd) :=
  open Classical in
  if x.n0 < 0 ∨ x.n2 < 0 ∨ x.n3 < 0 then some (0, ⟨0, 0, 0, fun _ => 0⟩)
  else if x.n3 = 1 ∨ gContact Rhm x ≤ 0 then none
  else some (-scale * x.n0 * Real.log (gContact Rhm x), bondGrad Rhm scale x)

/-! ### Fields (MixedFMT.cpp) -/

section
variable (g : Grid)

/-- MixedFMT_internal.h:30-41, MixedFMT.cpp:24-42 `tensorKernel`; the same as `tensorGradient` of Operators_internal.h. -/
def tensorKernel (X : Arr) : Tensor Arr :=
  let mX : Nat → IV → ℂ := fun i v => if isNyquist g.S v then 0 else - X i
  let G := fun v k => (gvec g.G v k : ℂ)
  let gsq := fun v => G v 0 * G v 0 + G v 1 * G v 1 + G v 2 * G v 2
  { xy := halfMap g.S fun i v => mX i v * G v 0 * G v 1
    yz := halfMap g.S fun i v => mX i v * G v 1 * G v 2
    zx := halfMap g.S fun i v => mX i v * G v 2 * G v 0
    xxr := halfMap g.S fun i v => mX i v * (G v 0 * G v 0 - (1 / 3) * gsq v)
    yyr := halfMap g.S fun i v => mX i v * (G v 1 * G v 1 - (1 / 3) * gsq v) }

/-- MixedFMT_internal.h:44-57, MixedFMT.cpp:44-62 `tensorKernel_grad`. -/
def tensorKernelGrad (V : Tensor Arr) : Arr :=
  let G := fun v k => (gvec g.G v k : ℂ)
  let gsq := fun v => G v 0 * G v 0 + G v 1 * G v 1 + G v 2 * G v 2
  halfMap g.S fun i v =>
    -(if isNyquist g.S v then 0 else V.xy i * G v 0 * G v 1 + V.yz i * G v 1 * G v 2 + V.zx i * G v 2 * G v 0
      + V.xxr i * (G v 0 * G v 0 - (1 / 3) * gsq v) + V.yyr i * (G v 1 * G v 1 - (1 / 3) * gsq v))

/-- The fields that enter `PhiFMT`, and the gradients that it returns: three fields on the grid and three in reciprocal space. -/
structure Weighted where
  n0 : Field
  n1 : Field
  n2 : Field
  n3 : Arr
  n1v : Arr
  n2m : Arr

/-- MixedFMT.cpp:80-83: the weighted densities at a grid point. -/
def fmtAt (x : Weighted) (j : Nat) : Fmt where
  n0 := x.n0 j
  n1 := x.n1 j
  n2 := x.n2 j
  n3 := fftI g.S x.n3 j
  n1v k := fftI g.S (gradient g.S g.G x.n1v k) j
  n2v k := fftI g.S (gradient g.S g.G (fun i => -x.n3 i) k) j
  n2m := ⟨fftI g.S (tensorKernel g x.n2m).xy j, fftI g.S (tensorKernel g x.n2m).yz j, fftI g.S (tensorKernel g x.n2m).zx j,
    fftI g.S (tensorKernel g x.n2m).xxr j, fftI g.S (tensorKernel g x.n2m).yyr j⟩

/-- A sum over the grid, which is a number if all its terms are. -/
def sumO (n : Nat) (f : Nat → Option ℝ) : Option ℝ :=
  open Classical in if ∀ j < n, (f j).isSome then some (∑ j ∈ Finset.range n, (f j).getD 0) else none

/-- MixedFMT.cpp:89-109: the energy returned by `PhiFMT`. -/
def PhiFMT (x : Weighted) : Option ℝ := (sumO (nr g.S) fun j => (phiFmt (fmtAt g x j)).map Prod.fst).map (g.dV * ·)

/-- The gradients at a grid point. -/
def fmtGradAt (x : Weighted) (j : Nat) : Fmt := ((phiFmt (fmtAt g x j)).map Prod.snd).getD Fmt.zero

/-- MixedFMT.cpp:85-109: what `PhiFMT` adds to the gradients. -/
def PhiFMTgrad (x : Weighted) : Weighted where
  n0 j := (fmtGradAt g x j).n0
  n1 j := (fmtGradAt g x j).n1
  n2 j := (fmtGradAt g x j).n2
  n2m := tensorKernelGrad g ⟨Idag g.S fun j => (fmtGradAt g x j).n2m.xy, Idag g.S fun j => (fmtGradAt g x j).n2m.yz, Idag g.S fun j => (fmtGradAt g x j).n2m.zx,
    Idag g.S fun j => (fmtGradAt g x j).n2m.xxr, Idag g.S fun j => (fmtGradAt g x j).n2m.yyr⟩
  n1v i := -divergence g.S g.G (fun k => Idag g.S fun j => (fmtGradAt g x j).n1v k) i
  n3 i := Idag g.S (fun j => (fmtGradAt g x j).n3) i + divergence g.S g.G (fun k => Idag g.S fun j => (fmtGradAt g x j).n2v k) i

/-- MixedFMT.cpp:134-135: the weighted densities of the bonding correction at a grid point. -/
def bndAt (n0mol n2 : Field) (n3 : Arr) (j : Nat) : Bnd where
  n0 := n0mol j
  n2 := n2 j
  n3 := fftI g.S n3 j
  n2v k := fftI g.S (gradient g.S g.G (fun i => -n3 i) k) j

/-- MixedFMT.cpp:132-157: the energy returned by `PhiBond`. -/
def PhiBond (Rhm scale : ℝ) (n0mol n2 : Field) (n3 : Arr) : Option ℝ :=
  (sumO (nr g.S) fun j => (phiBond Rhm scale (bndAt g n0mol n2 n3 j)).map Prod.fst).map (g.dV * ·)

/-- The gradients at a grid point. -/
def bndGradAt (Rhm scale : ℝ) (n0mol n2 : Field) (n3 : Arr) (j : Nat) : Bnd :=
  ((phiBond Rhm scale (bndAt g n0mol n2 n3 j)).map Prod.snd).getD ⟨0, 0, 0, fun _ => 0⟩

/-- MixedFMT.cpp:155: what `PhiBond` adds to `grad_n3tilde`. -/
def PhiBond_n3 (Rhm scale : ℝ) (n0mol n2 : Field) (n3 : Arr) : Arr := fun i =>
  Idag g.S (fun j => (bndGradAt g Rhm scale n0mol n2 n3 j).n3) i
    + divergence g.S g.G (fun k => Idag g.S fun j => (bndGradAt g Rhm scale n0mol n2 n3 j).n2v k) i

/-! ### The mixture: hard spheres and bonds (FluidMixtureCompute.cpp:280-351, 465-530) -/

/-- A site with a hard sphere (`Rhs` not zero): multiplicity and kernels. Sites without one do not enter here. -/
structure Sphere where
  mult : Nat
  w0 : Nat → ℝ
  w1 : Nat → ℝ
  w2 : Nat → ℝ
  w3 : Nat → ℝ
  w1v : Nat → ℝ
  w2m : Nat → ℝ

/-- The hard spheres of a mixture: `C` components, those of component `c` labelled by `Fin (ns c)`, and its bonds (`Molecule::getBonds`): harmonic mean of the radii, number. -/
structure Mix (C : Nat) where
  T : ℝ
  ns : Fin C → Nat
  sphere : (c : Fin C) → Fin (ns c) → Sphere
  bonds : Fin C → List (ℝ × Nat)

variable {C : Nat} (m : Mix C)

/-- Densities of the spheres, in reciprocal space. -/
abbrev Dens : Type := (c : Fin C) → Fin (m.ns c) → Arr

/-- A linear combination of the densities of one component, each multiplied by a kernel. -/
def wsum (w : Sphere → Nat → ℝ) (N : Dens m) (c : Fin C) : Arr := fun i => ∑ s, wMul (w (m.sphere c s)) (N c s) i

/-- The same for all components. -/
def wtot (w : Sphere → Nat → ℝ) (N : Dens m) : Arr := fun i => ∑ c, wsum m w N c i

/-- Lines 281-309: the weighted densities. -/
def weighted (N : Dens m) : Weighted where
  n0 := fftI g.S (wtot m Sphere.w0 N)
  n1 := fftI g.S (wtot m Sphere.w1 N)
  n2 := fftI g.S (wtot m Sphere.w2 N)
  n3 := wtot m Sphere.w3 N
  n1v := wtot m Sphere.w1v N
  n2m := wtot m Sphere.w2m N

/-- Line 302: `n0mol`. -/
def n0mol (N : Dens m) (c : Fin C) : Field := fftI g.S (wsum m Sphere.w0 N c)

/-- Line 291: `n0mult`. -/
def n0mult (c : Fin C) : Nat := ∑ s, (m.sphere c s).mult

/-- Lines 321, 507: the scale passed to the bonding correction. -/
def bondScale (c : Fin C) (b : ℝ × Nat) : ℝ := b.2 * 1 / n0mult m c

/-- Sum of energies. -/
def addO : List (Option ℝ) → Option ℝ
  | [] => some 0
  | x :: xs => do let a ← x; let b ← addO xs; pure (a + b)

/-- All pairs of a component and one of its bonds. -/
def allBonds : List (Fin C × ℝ × Nat) := (List.finRange C).flatMap fun c => (m.bonds c).map fun b => (c, b)

/-- Lines 311-324: the energy of hard spheres and bonds. -/
def hardSphere (N : Dens m) : Option ℝ :=
  addO ((PhiFMT g (weighted g m N)).map (m.T * ·) ::
    (allBonds m).map fun b => (PhiBond g b.2.1 (bondScale m b.1 b.2) (n0mol g m N b.1) (weighted g m N).n2 (weighted g m N).n3).map (m.T * ·))

/-- Lines 310-324: `Phi_n2` after all bonds. -/
def Phi_n2 (N : Dens m) : Field := fun j => (PhiFMTgrad g (weighted g m N)).n2 j
  + ((allBonds m).map fun b => (bndGradAt g b.2.1 (bondScale m b.1 b.2) (n0mol g m N b.1) (weighted g m N).n2 (weighted g m N).n3 j).n2).sum

/-- Lines 310-324: `Phi_n3tilde` after all bonds. -/
def Phi_n3 (N : Dens m) : Arr := fun i => (PhiFMTgrad g (weighted g m N)).n3 i
  + ((allBonds m).map fun b => PhiBond_n3 g b.2.1 (bondScale m b.1 b.2) (n0mol g m N b.1) (weighted g m N).n2 (weighted g m N).n3 i).sum

/-- Lines 319-322: `Phi_n0mol` of a component. -/
def Phi_n0mol (N : Dens m) (c : Fin C) : Field := fun j =>
  ((m.bonds c).map fun b => (bndGradAt g b.1 (bondScale m c b) (n0mol g m N c) (weighted g m N).n2 (weighted g m N).n3 j).n0).sum

/-- Lines 323-350: what is added to `Phi_Ntilde`. -/
def hardSphereGrad (N : Dens m) (c : Fin C) (s : Fin (m.ns c)) : Arr := fun i =>
  let sp := m.sphere c s
  let x := PhiFMTgrad g (weighted g m N)
  m.T * wMul sp.w0 (Idag g.S (Phi_n0mol g m N c)) i + m.T * wMul sp.w0 (Idag g.S x.n0) i + m.T * wMul sp.w1 (Idag g.S x.n1) i
    + m.T * wMul sp.w2 (Idag g.S (Phi_n2 g m N)) i + m.T * wMul sp.w3 (Phi_n3 g m N) i + m.T * wMul sp.w1v x.n1v i + m.T * wMul sp.w2m x.n2m i

end

/-! ### Kernels of a hard sphere at zero wave vector (ErfFMTweight.h, Molecule.cpp:225-228) -/

/-- ErfFMTweight.h:33-61, Molecule.cpp (hard spheres are set up with width 0), with `sigma = 0` at `G = 0`, where the spherical Bessel functions of order 0 and 2 are 1 and 0: `w0`, `w1`, `w2`, `w3`. -/
def fmtWeight0 (R : ℝ) : ℝ × ℝ × ℝ × ℝ :=
  let softness := (0 / R) ^ 2
  (1 * 1, R * 1 * 1, 4 * Real.pi * R ^ 2 * 1 * (1 + softness * 1), (4 * Real.pi * R ^ 3 / 3) * 1 * (1 * (1 + 3 * softness) + 0))

/-! ### The uniform fluid (FluidMixtureCompute.cpp:465-550, MixedFMT.cpp:112-121, 159-165) -/

section
variable {C : Nat} (m : Mix C)

/-- Lines 468-472, 486-495: a weighted density of a component in the uniform fluid with the given densities of spheres. -/
def wsumU (w : Sphere → Nat → ℝ) (N : (c : Fin C) → Fin (m.ns c) → ℝ) (c : Fin C) : ℝ := ∑ s, w (m.sphere c s) 0 * N c s

/-- Lines 479-498. -/
def wtotU (w : Sphere → Nat → ℝ) (N : (c : Fin C) → Fin (m.ns c) → ℝ) : ℝ := ∑ c, wsumU m w N c

/-- MixedFMT.cpp:112-121: the arguments of `phiFMTuniform`. -/
def fmtU (N : (c : Fin C) → Fin (m.ns c) → ℝ) : Fmt :=
  ⟨wtotU m Sphere.w0 N, wtotU m Sphere.w1 N, wtotU m Sphere.w2 N, wtotU m Sphere.w3 N, fun _ => 0, fun _ => 0, ⟨0, 0, 0, 0, 0⟩⟩

/-- MixedFMT.cpp:159-165: the arguments of `phiBondUniform`. -/
def bndU (N : (c : Fin C) → Fin (m.ns c) → ℝ) (c : Fin C) : Bnd := ⟨wsumU m Sphere.w0 N c, wtotU m Sphere.w2 N, wtotU m Sphere.w3 N, fun _ => 0⟩

/-- Lines 499-516: the energy density. -/
def hardSphereU (N : (c : Fin C) → Fin (m.ns c) → ℝ) : Option ℝ :=
  open Classical in
  if wtotU m Sphere.w0 N ≠ 0 then
    addO (((phiFmt (fmtU m N)).map Prod.fst).map (m.T * ·) ::
      (allBonds m).map fun b => ((phiBond b.2.1 (bondScale m b.1 b.2) (bndU m N b.1)).map Prod.fst).map (m.T * ·))
  else some 0

/-- The gradient of the functional of the uniform fluid. -/
def fmtGradU (N : (c : Fin C) → Fin (m.ns c) → ℝ) : Fmt := ((phiFmt (fmtU m N)).map Prod.snd).getD Fmt.zero

/-- The gradient of a bonding correction in the uniform fluid. -/
def bndGradU (Rhm scale : ℝ) (N : (c : Fin C) → Fin (m.ns c) → ℝ) (c : Fin C) : Bnd :=
  ((phiBond Rhm scale (bndU m N c)).map Prod.snd).getD ⟨0, 0, 0, fun _ => 0⟩

/-- Lines 505-529: what is added to `Phi_N`. -/
def hardSphereGradU (N : (c : Fin C) → Fin (m.ns c) → ℝ) (c : Fin C) (s : Fin (m.ns c)) : ℝ :=
  open Classical in
  if wtotU m Sphere.w0 N ≠ 0 then
    let sp := m.sphere c s
    m.T * (sp.w0 0 * ((m.bonds c).map fun b => (bndGradU m b.1 (bondScale m c b) N c).n0).sum)
      + m.T * (sp.w0 0 * (fmtGradU m N).n0) + m.T * (sp.w1 0 * (fmtGradU m N).n1)
      + m.T * (sp.w2 0 * ((fmtGradU m N).n2 + ((allBonds m).map fun b => (bndGradU m b.2.1 (bondScale m b.1 b.2) N b.1).n2).sum))
      + m.T * (sp.w3 0 * ((fmtGradU m N).n3 + ((allBonds m).map fun b => (bndGradU m b.2.1 (bondScale m b.1 b.2) N b.1).n3).sum))
  else 0

end
end
end Jdftx.Fluid
