import Verif.Model.Cavity
import Verif.Model.ExCorr

/-!
# Model of the cavity shape functions that depend on gradients: CANDLE and SGA13
(jdftx/fluid/PCM_internal.h:104-161, PCM_internal.cpp:52-134)

Exact real arithmetic; grids and Fourier transforms as in `Model.ExCorr` and `Model.BoxField`. The stress outputs (`E_RRT`) are not modelled.
-/
namespace Jdftx.Cavity
open Box ExCorr
noncomputable section

/-- Inner product of Cartesian vectors. -/
def dot3 (a b : Fin 3 → ℝ) : ℝ := a 0 * b 0 + a 1 * b 1 + a 2 * b 2

/-- `copysign(x, p)` for positive `x` (zero counted as positive). -/
def copysign (x p : ℝ) : ℝ := if p < 0 then -x else x

/-! ### CANDLE, one grid point (PCM_internal.h:107-142) -/

/-- Line 115. -/
def normFac (nc : ℝ) (Dn : Fin 3 → ℝ) : ℝ := 1 / Real.sqrt (dot3 Dn Dn + 1e-4 * nc * nc)

/-- Line 116. -/
def eVec (nc : ℝ) (Dn : Fin 3 → ℝ) (k : Fin 3) : ℝ := Dn k * normFac nc Dn

/-- Lines 118-119. -/
def eDotE (nc : ℝ) (Dn Dphi : Fin 3 → ℝ) : ℝ := dot3 (eVec nc Dn) fun k => -Dphi k

/-- Lines 120-121. -/
def xOf (nc p : ℝ) (Dn Dphi : Fin 3 → ℝ) : ℝ := -|p| * eDotE nc Dn Dphi

/-- Lines 122-129: `asymm`. -/
def asymm (x : ℝ) : ℝ :=
  if x > 4 then 1
  else if x > 0 then
    let exp2x2 := Real.exp (2 * x * x)
    let den := 1 / (1 + exp2x2)
    (exp2x2 - 1) * den
  else 0

/-- Lines 122-129: `asymm_x`. -/
def asymm_x (x : ℝ) : ℝ :=
  if x > 4 then 0
  else if x > 0 then
    let exp2x2 := Real.exp (2 * x * x)
    let den := 1 / (1 + exp2x2)
    8 * x * exp2x2 * den * den
  else 0

/-- Lines 130-131. -/
def comb (nc p n : ℝ) (Dn Dphi : Fin 3 → ℝ) : ℝ := Real.log (n / nc) - copysign 3 p * asymm (xOf nc p Dn Dphi)

/-- Lines 111-133: the shape function. -/
def candle (nc invS p n : ℝ) (Dn Dphi : Fin 3 → ℝ) : ℝ :=
  if n < 1e-8 then 1 else 0.5 * Smear.erfc (invS * comb nc p n Dn Dphi)

/-- Line 135. -/
def A_comb (nc invS p n : ℝ) (Dn Dphi : Fin 3 → ℝ) (A_shape : ℝ) : ℝ :=
  (-invS / Real.sqrt Real.pi) * A_shape * Real.exp (-comb nc p n Dn Dphi * comb nc p n Dn Dphi * invS * invS)

/-- Lines 112, 136: what is added to `A_n[i]`. -/
def A_n (nc invS p n : ℝ) (Dn Dphi : Fin 3 → ℝ) (A_shape : ℝ) : ℝ := if n < 1e-8 then 0 else A_comb nc invS p n Dn Dphi A_shape / n

/-- Line 137. -/
def A_x (nc invS p n : ℝ) (Dn Dphi : Fin 3 → ℝ) (A_shape : ℝ) : ℝ :=
  A_comb nc invS p n Dn Dphi A_shape * (-copysign 3 p) * asymm_x (xOf nc p Dn Dphi)

/-- Lines 112, 138: what is added to `A_Dn`. -/
def A_Dn (nc invS p n : ℝ) (Dn Dphi : Fin 3 → ℝ) (A_shape : ℝ) (k : Fin 3) : ℝ :=
  if n < 1e-8 then 0
  else (A_x nc invS p n Dn Dphi A_shape * (-|p|) * normFac nc Dn) * (-Dphi k - eVec nc Dn k * eDotE nc Dn Dphi)

/-- Lines 112, 139: what is added to `A_Dphi`. -/
def A_Dphi (nc invS p n : ℝ) (Dn Dphi : Fin 3 → ℝ) (A_shape : ℝ) (k : Fin 3) : ℝ :=
  if n < 1e-8 then 0 else (A_x nc invS p n Dn Dphi A_shape * (-|p|) * (-1)) * eVec nc Dn k

/-- Lines 112, 140: what is added to `A_pCavity[i]`. -/
def A_p (nc invS p n : ℝ) (Dn Dphi : Fin 3 → ℝ) (A_shape : ℝ) : ℝ :=
  if n < 1e-8 then 0 else A_x nc invS p n Dn Dphi A_shape * (-copysign 1 p) * eDotE nc Dn Dphi

/-! ### CANDLE on the grid (PCM_internal.cpp:67-98) -/

section
variable (g : Grid)

/-- Operators.cpp:985: gradient of a real field. -/
def grad (f : Field) (k : Fin 3) : Field := fftI g.S (gradient g.S g.G (fftJ g.S f) k)

/-- Operators.cpp:1005: divergence of a real vector field. -/
def div (v : Fin 3 → Field) : Field := fftI g.S (divergence g.S g.G fun k => fftJ g.S (v k))

/-- PCM_internal.cpp:70, 80: the vacuum electric potential's gradient on the grid. -/
def gradPhi (phi : Arr) (k : Fin 3) : Field := fftI g.S (gradient g.S g.G phi k)

/-- Lines 67-76 `compute`. -/
def candleShape (nc sigma p : ℝ) (n : Field) (phi : Arr) : Field := fun j =>
  candle nc (Real.sqrt 0.5 / sigma) p (n j) (fun k => grad g n k j) fun k => gradPhi g phi k j

/-- Lines 79-91: `E_Dn`. -/
def E_Dn (nc sigma p : ℝ) (n : Field) (phi : Arr) (E_shape : Field) (k : Fin 3) : Field := fun j =>
  A_Dn nc (Real.sqrt 0.5 / sigma) p (n j) (fun k => grad g n k j) (fun k => gradPhi g phi k j) (E_shape j) k

/-- Lines 79-91: `E_Dphi`. -/
def E_Dphi (nc sigma p : ℝ) (n : Field) (phi : Arr) (E_shape : Field) (k : Fin 3) : Field := fun j =>
  A_Dphi nc (Real.sqrt 0.5 / sigma) p (n j) (fun k => grad g n k j) (fun k => gradPhi g phi k j) (E_shape j) k

/-- Lines 78-98: new value of `E_n`. -/
def candleE_n (nc sigma p : ℝ) (n : Field) (phi : Arr) (E_shape : Field) (E_n : Field) : Field := fun j =>
  E_n j + A_n nc (Real.sqrt 0.5 / sigma) p (n j) (fun k => grad g n k j) (fun k => gradPhi g phi k j) (E_shape j)
    - div g (E_Dn g nc sigma p n phi E_shape) j

/-- Line 96: new value of `E_phi`. -/
def candleE_phi (nc sigma p : ℝ) (n : Field) (phi : Arr) (E_shape : Field) (E_phi : Arr) : Arr := fun i =>
  E_phi i - divergence g.S g.G (fun k => fftJ g.S (E_Dphi g nc sigma p n phi E_shape k)) i

/-- Line 97: new value of `E_pCavity`. -/
def candleE_p (nc sigma p : ℝ) (n : Field) (phi : Arr) (E_shape : Field) (E_p : ℝ) : ℝ :=
  E_p + g.dV * ∑ j ∈ Finset.range (nr g.S),
    A_p nc (Real.sqrt 0.5 / sigma) p (n j) (fun k => grad g n k j) (fun k => gradPhi g phi k j) (E_shape j)

/-! ### SGA13 (PCM_internal.h:147-160, PCM_internal.cpp:110-133) -/

/-- PCM_internal.h:149-157: `nEx[i]`. -/
def nExOf (alpha n D2 : ℝ) : ℝ := if n < 1e-9 then 1e-9 else alpha * n + D2 * (1 / n)

/-- Lines 151, 158: `nEx_nBar[i]`. -/
def nEx_nBar (alpha n D2 : ℝ) : ℝ := if n < 1e-9 then 0 else alpha - D2 * (1 / n) * (1 / n)

/-- Lines 152, 159: `nEx_DnBarSq[i]`. -/
def nEx_DnBarSq (n : ℝ) : ℝ := if n < 1e-9 then 0 else 1 / n

/-- Operators_internal.h `radialFunctionMultiply`: the product with a radial function, given by its value at each reciprocal lattice vector. -/
def wMul (w : Nat → ℝ) (X : Arr) : Arr := fun i => X i * (w i.toNat : ℂ)

/-- PCM_internal.cpp:113-114. -/
def nBar (w : Nat → ℝ) (n : Field) : Field := fftI g.S (wMul w (fftJ g.S n))

/-- Line 115. -/
def DnBar (w : Nat → ℝ) (R : ℝ) (n : Field) (k : Fin 3) : Field :=
  fftI g.S (gradient g.S g.G (fun i => (R : ℂ) * wMul w (fftJ g.S n) i) k)

/-- Line 116. -/
def DnBarSq (w : Nat → ℝ) (R : ℝ) (n : Field) : Field := fun j => dot3 (fun k => DnBar g w R n k j) fun k => DnBar g w R n k j

/-- Lines 118-125: the expanded density. -/
def expand (w : Nat → ℝ) (R : ℝ) (n : Field) : Field := fun j => nExOf (R * R * R) (nBar g w n j) (DnBarSq g w R n j)

/-- Lines 127-130. -/
def A_nBarTilde (w : Nat → ℝ) (R : ℝ) (n A_nEx : Field) : Arr := fun i =>
  Idag g.S (fun j => A_nEx j * nEx_nBar (R * R * R) (nBar g w n j) (DnBarSq g w R n j)) i
    - (2 * R : ℝ) * divergence g.S g.G (fun k => Idag g.S fun j => A_nEx j * nEx_DnBarSq (nBar g w n j) * DnBar g w R n k j) i

/-- Line 131: new value of `A_n`. -/
def expandA_n (w : Nat → ℝ) (R : ℝ) (n A_nEx A_n : Field) : Field := fun j => A_n j + Jdag g.S (wMul w (A_nBarTilde g w R n A_nEx)) j

end
end
end Jdftx.Cavity
