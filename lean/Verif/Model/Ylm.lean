import Mathlib.Analysis.SpecialFunctions.Trigonometric.Basic
import Mathlib.Analysis.SpecialFunctions.Pow.Real

/-!
# Model of the spherical harmonics (jdftx/core/SphericalHarmonics.h)

Exact real arithmetic; decimal constants are the rational numbers they denote.
-/
namespace Jdftx.Ylm
noncomputable section

/-- Lines 46-48: the product `x/3 * x/5 * ... * x/(2l+1)`. -/
def leading (l : Nat) (x : ℝ) : ℝ := (List.range l).foldl (fun term (k : Nat) => term * (x / (2 * (k : ℝ) + 3))) 1

/-- Lines 49-55: the loop over `i = 2, 4, ..., 14`; the state is `(term, ret)`. -/
def seriesLoop (l : Nat) (x term : ℝ) : ℝ :=
  ((List.range 7).foldl (fun (s : ℝ × ℝ) (k : Nat) =>
    let i : ℝ := 2 * (k : ℝ) + 2
    let t := s.1 * (-(x * x) / (i * (i + 2 * (l : ℝ) + 1)))
    (t, s.2 + t)) (term, term)).2

open Classical in
/-- Lines 30-57 `bessel_jl`. -/
def bessel (l : Nat) (x : ℝ) : ℝ :=
  if |x| > 1 + 0.1 * (l : ℝ) then
    let s := Real.sin x
    let c := Real.cos x
    let xInv := 1 / x
    let xInvSq := xInv * xInv
    match l with
    | 0 => xInv * s
    | 1 => xInv * (xInv * s - c)
    | 2 => xInv * ((3 * xInvSq - 1) * s - 3 * xInv * c)
    | 3 => xInv * ((15 * xInvSq - 6) * xInv * s + (1 - 15 * xInvSq) * c)
    | 4 => xInv * ((1 + xInvSq * (-45 + xInvSq * 105)) * s + xInv * (10 - 105 * xInvSq) * c)
    | 5 => xInv * (xInv * (15 + xInvSq * (-420 + xInvSq * 945)) * s + (-1 + xInvSq * (105 - 945 * xInvSq)) * c)
    | 6 => xInv * ((-1 + xInvSq * (210 + xInvSq * (-4725 + 10395 * xInvSq))) * s + xInv * (-21 + xInvSq * (1260 - 10395 * xInvSq)) * c)
    | _ => 0
  else seriesLoop l x (leading l x)

/-- Lines 72-122 `YlmInternal::Ylm<lm>`, by the flat index `lm = l(l+1)+m`. The two corner cases below zero (lines 72, 73), and indices above 48, for
which the code has no function, give zero. -/
def flat (lm : Nat) (x y z : ℝ) : ℝ :=
  let x2 := x * x
  let y2 := y * y
  let z2 := z * z
  let x2y2 := x * x + y * y
  match lm with
  | 0 => 0.28209479177387814
  | 1 => 0.4886025119029199 * y
  | 2 => 0.4886025119029199 * z
  | 3 => 0.4886025119029199 * x
  | 4 => 1.0925484305920792 * x * y
  | 5 => 1.0925484305920792 * y * z
  | 6 => -0.31539156525252005 * (x * x + y * y - 2 * z * z)
  | 7 => 1.0925484305920792 * x * z
  | 8 => 0.5462742152960396 * (x - y) * (x + y)
  | 9 => -0.5900435899266435 * y * (y * y - 3 * x * x)
  | 10 => 2.890611442640554 * x * y * z
  | 11 => -0.4570457994644658 * y * (x * x + y * y - 4 * z * z)
  | 12 => 0.3731763325901154 * z * (2 * z * z - 3 * (x * x + y * y))
  | 13 => -0.4570457994644658 * x * (x * x + y * y - 4 * z * z)
  | 14 => 1.445305721320277 * (x - y) * (x + y) * z
  | 15 => 0.5900435899266435 * x * (x * x - 3 * y * y)
  | 16 => 2.5033429417967046 * x * y * (x - y) * (x + y)
  | 17 => -1.7701307697799304 * y * z * (y * y - 3 * x * x)
  | 18 => -0.9461746957575601 * x * y * (x * x + y * y - 6 * z * z)
  | 19 => -0.6690465435572892 * y * z * (3 * (x * x + y * y) - 4 * z * z)
  | 20 => 0.03526184897173477 * (9 * x2y2 * (x2y2 - 8 * z2) + 24 * z2 * z2)
  | 21 => -0.6690465435572892 * x * z * (3 * (x * x + y * y) - 4 * z * z)
  | 22 => -0.47308734787878004 * (x2 - y2) * (x2 + y2 - 6 * z * z)
  | 23 => 1.7701307697799304 * x * z * (x * x - 3 * y * y)
  | 24 => 0.6258357354491761 * (x2 * (x2 - 6 * y2) + y2 * y2)
  | 25 => 0.6563820568401701 * y * (5 * x2 * (x2 - 2 * y2) + y2 * y2)
  | 26 => 8.302649259524166 * x * y * z * (x - y) * (x + y)
  | 27 => 0.4892382994352504 * y * (y2 - 3 * x2) * (x2 + y2 - 8 * z * z)
  | 28 => -4.793536784973324 * x * y * z * (x * x + y * y - 2 * z * z)
  | 29 => 0.45294665119569694 * y * (x2y2 * (x2y2 - 12 * z2) + 8 * z2 * z2)
  | 30 => 0.1169503224534236 * z * (15 * x2y2 * x2y2 - 8 * z2 * (5 * x2y2 - z2))
  | 31 => 0.45294665119569694 * x * (x2y2 * (x2y2 - 12 * z2) + 8 * z2 * z2)
  | 32 => -2.396768392486662 * (x2 - y2) * z * (x2 + y2 - 2 * z * z)
  | 33 => -0.4892382994352504 * x * (x2 - 3 * y2) * (x2 + y2 - 8 * z * z)
  | 34 => 2.0756623148810416 * z * (x2 * (x2 - 6 * y2) + y2 * y2)
  | 35 => 0.6563820568401701 * x * (x2 * (x2 - 10 * y2) + 5 * y2 * y2)
  | 36 => 1.3663682103838286 * x * y * (x2 * (3 * x2 - 10 * y2) + 3 * y2 * y2)
  | 37 => 2.366619162231752 * y * z * (5 * x2 * (x2 - 2 * y2) + y2 * y2)
  | 38 => -2.0182596029148967 * x * y * (x2 - y2) * (x2 + y2 - 10 * z * z)
  | 39 => 0.9212052595149236 * y * z * (y2 - 3 * x2) * (3 * (x2 + y2) - 8 * z * z)
  | 40 => 0.9212052595149236 * x * y * (x2y2 * (x2y2 - 16 * z2) + 16 * z2 * z2)
  | 41 => 0.5826213625187314 * y * z * (5 * x2y2 * (x2y2 - 4 * z2) + 8 * z2 * z2)
  | 42 => 0.06356920226762842 * (5 * x2y2 * x2y2 * (18 * z2 - x2y2) + 8 * z2 * z2 * (2 * z2 - 15 * x2y2))
  | 43 => 0.5826213625187314 * x * z * (5 * x2y2 * (x2y2 - 4 * z2) + 8 * z2 * z2)
  | 44 => 0.4606026297574618 * (x2 - y2) * (x2y2 * (x2y2 - 16 * z2) + 16 * z2 * z2)
  | 45 => -0.9212052595149236 * x * z * (x2 - 3 * y2) * (3 * (x2 + y2) - 8 * z * z)
  | 46 => -0.5045649007287242 * (x2 * (x2 - 6 * y2) + y2 * y2) * (x2 + y2 - 10 * z * z)
  | 47 => 2.366619162231752 * x * z * (x2 * (x2 - 10 * y2) + 5 * y2 * y2)
  | 48 => 0.6831841051919143 * (x2 * x2 * (x2 - 15 * y2) + y2 * y2 * (15 * x2 - y2))
  | _ => 0

/-- Lines 132-135 `Ylm<l*(l+1)+m>`, with an integer index (negative for the corner cases). -/
def flatZ (lm : ℤ) (x y z : ℝ) : ℝ := if lm < 0 then 0 else flat lm.toNat x y z

/-- Lines 137-140 and 196-197 `Ylm<l,m>`, `Ylm(l,m,qHat)`. -/
def Y (l m : ℤ) (x y z : ℝ) : ℝ := flatZ (l * (l + 1) + m) x y z

/-- Lines 200-204 `YlmProdTerm`. -/
structure Term where
  l : ℤ
  m : ℤ
  coeff : ℚ

/-- Lines 213-348: the table. -/
def prodTable : Nat → List Term
  | 0 => [⟨0, 0, 0.28209479177387814⟩]
  | 1 => [⟨1, -1, 0.28209479177387814⟩]
  | 2 => [⟨0, 0, 0.28209479177387814⟩, ⟨2, 0, -0.126156626101008⟩, ⟨2, 2, -0.2185096861184158⟩]
  | 3 => [⟨1, 0, 0.28209479177387814⟩]
  | 4 => [⟨2, -1, 0.2185096861184158⟩]
  | 5 => [⟨0, 0, 0.28209479177387814⟩, ⟨2, 0, 0.252313252202016⟩]
  | 6 => [⟨1, 1, 0.28209479177387814⟩]
  | 7 => [⟨2, -2, 0.2185096861184158⟩]
  | 8 => [⟨2, 1, 0.2185096861184158⟩]
  | 9 => [⟨0, 0, 0.28209479177387814⟩, ⟨2, 0, -0.126156626101008⟩, ⟨2, 2, 0.2185096861184158⟩]
  | 10 => [⟨2, -2, 0.28209479177387814⟩]
  | 11 => [⟨1, 1, 0.2185096861184158⟩, ⟨3, 1, -0.058399170081901854⟩, ⟨3, 3, -0.2261790131595403⟩]
  | 12 => [⟨3, -2, 0.18467439092237178⟩]
  | 13 => [⟨1, -1, 0.2185096861184158⟩, ⟨3, -3, 0.2261790131595403⟩, ⟨3, -1, -0.058399170081901854⟩]
  | 14 => [⟨0, 0, 0.28209479177387814⟩, ⟨2, 0, -0.18022375157286857⟩, ⟨4, 0, 0.04029925596769687⟩, ⟨4, 4, -0.23841361350444806⟩]
  | 15 => [⟨2, -1, 0.28209479177387814⟩]
  | 16 => [⟨1, 0, 0.2185096861184158⟩, ⟨3, 0, -0.14304816810266882⟩, ⟨3, 2, -0.18467439092237178⟩]
  | 17 => [⟨1, -1, 0.2185096861184158⟩, ⟨3, -1, 0.23359668032760741⟩]
  | 18 => [⟨3, -2, 0.18467439092237178⟩]
  | 19 => [⟨2, 1, 0.15607834722743988⟩, ⟨4, 1, -0.06371871843402754⟩, ⟨4, 3, -0.16858388283618386⟩]
  | 20 => [⟨0, 0, 0.28209479177387814⟩, ⟨2, 0, 0.09011187578643429⟩, ⟨2, 2, -0.15607834722743988⟩, ⟨4, 0, -0.1611970238707875⟩, ⟨4, 2, -0.18022375157286857⟩]
  | 21 => [⟨2, 0, 0.28209479177387814⟩]
  | 22 => [⟨1, -1, -0.126156626101008⟩, ⟨3, -1, 0.20230065940342062⟩]
  | 23 => [⟨1, 0, 0.252313252202016⟩, ⟨3, 0, 0.2477666950834761⟩]
  | 24 => [⟨1, 1, -0.126156626101008⟩, ⟨3, 1, 0.20230065940342062⟩]
  | 25 => [⟨2, -2, -0.18022375157286857⟩, ⟨4, -2, 0.15607834722743988⟩]
  | 26 => [⟨2, -1, 0.09011187578643429⟩, ⟨4, -1, 0.2207281154418226⟩]
  | 27 => [⟨0, 0, 0.28209479177387814⟩, ⟨2, 0, 0.18022375157286857⟩, ⟨4, 0, 0.24179553580618124⟩]
  | 28 => [⟨2, 1, 0.28209479177387814⟩]
  | 29 => [⟨3, -2, 0.18467439092237178⟩]
  | 30 => [⟨1, 1, 0.2185096861184158⟩, ⟨3, 1, 0.23359668032760741⟩]
  | 31 => [⟨1, 0, 0.2185096861184158⟩, ⟨3, 0, -0.14304816810266882⟩, ⟨3, 2, 0.18467439092237178⟩]
  | 32 => [⟨2, -1, 0.15607834722743988⟩, ⟨4, -3, 0.16858388283618386⟩, ⟨4, -1, -0.06371871843402754⟩]
  | 33 => [⟨2, -2, 0.15607834722743988⟩, ⟨4, -2, 0.18022375157286857⟩]
  | 34 => [⟨2, 1, 0.09011187578643429⟩, ⟨4, 1, 0.2207281154418226⟩]
  | 35 => [⟨0, 0, 0.28209479177387814⟩, ⟨2, 0, 0.09011187578643429⟩, ⟨2, 2, 0.15607834722743988⟩, ⟨4, 0, -0.1611970238707875⟩, ⟨4, 2, 0.18022375157286857⟩]
  | 36 => [⟨2, 2, 0.28209479177387814⟩]
  | 37 => [⟨1, -1, -0.2185096861184158⟩, ⟨3, -3, 0.2261790131595403⟩, ⟨3, -1, 0.058399170081901854⟩]
  | 38 => [⟨3, 2, 0.18467439092237178⟩]
  | 39 => [⟨1, 1, 0.2185096861184158⟩, ⟨3, 1, -0.058399170081901854⟩, ⟨3, 3, 0.2261790131595403⟩]
  | 40 => [⟨4, -4, 0.23841361350444806⟩]
  | 41 => [⟨2, -1, -0.15607834722743988⟩, ⟨4, -3, 0.16858388283618386⟩, ⟨4, -1, 0.06371871843402754⟩]
  | 42 => [⟨2, 2, -0.18022375157286857⟩, ⟨4, 2, 0.15607834722743988⟩]
  | 43 => [⟨2, 1, 0.15607834722743988⟩, ⟨4, 1, -0.06371871843402754⟩, ⟨4, 3, 0.16858388283618386⟩]
  | 44 => [⟨0, 0, 0.28209479177387814⟩, ⟨2, 0, -0.18022375157286857⟩, ⟨4, 0, 0.04029925596769687⟩, ⟨4, 4, 0.23841361350444806⟩]
  | 45 => [⟨3, -3, 0.28209479177387814⟩]
  | 46 => [⟨2, 2, 0.2261790131595403⟩, ⟨4, 2, -0.04352817137756816⟩, ⟨4, 4, -0.23032943298089034⟩]
  | 47 => [⟨4, -3, 0.16286750396763996⟩]
  | 48 => [⟨2, -2, 0.2261790131595403⟩, ⟨4, -4, 0.23032943298089034⟩, ⟨4, -2, -0.04352817137756816⟩]
  | 49 => [⟨1, 1, 0.2261790131595403⟩, ⟨3, 1, -0.09403159725795937⟩, ⟨5, 1, 0.01694331772935932⟩, ⟨5, 5, -0.2455320005465369⟩]
  | 50 => [⟨3, 2, 0.1486770096793976⟩, ⟨5, 2, -0.04482780509623635⟩, ⟨5, 4, -0.1552880720369528⟩]
  | 51 => [⟨3, -3, -0.21026104350168⟩, ⟨5, -3, 0.12679217987703037⟩]
  | 52 => [⟨3, -2, 0.1486770096793976⟩, ⟨5, -4, 0.1552880720369528⟩, ⟨5, -2, -0.04482780509623635⟩]
  | 53 => [⟨1, -1, 0.2261790131595403⟩, ⟨3, -1, -0.09403159725795937⟩, ⟨5, -5, 0.2455320005465369⟩, ⟨5, -1, 0.01694331772935932⟩]
  | 54 => [⟨0, 0, 0.28209479177387814⟩, ⟨2, 0, -0.21026104350168⟩, ⟨4, 0, 0.07693494321105766⟩, ⟨6, 0, -0.011854396693264043⟩, ⟨6, 6, -0.25480059867297505⟩]
  | 55 => [⟨3, -2, 0.28209479177387814⟩]
  | 56 => [⟨2, 1, 0.18467439092237178⟩, ⟨4, 1, -0.07539300438651343⟩, ⟨4, 3, -0.19947114020071635⟩]
  | 57 => [⟨2, -2, 0.18467439092237178⟩, ⟨4, -2, 0.21324361862292307⟩]
  | 58 => [⟨2, -1, 0.18467439092237178⟩, ⟨4, -3, 0.19947114020071635⟩, ⟨4, -1, -0.07539300438651343⟩]
  | 59 => [⟨1, 0, 0.18467439092237178⟩, ⟨3, 0, -0.18806319451591874⟩, ⟨5, 0, 0.05357947514468781⟩, ⟨5, 4, -0.19018826981554557⟩]
  | 60 => [⟨1, 1, 0.18467439092237178⟩, ⟨3, 1, 0.11516471649044517⟩, ⟨3, 3, -0.1486770096793976⟩, ⟨5, 1, -0.08300496597356405⟩, ⟨5, 3, -0.1793112203849454⟩]
  | 61 => [⟨5, -2, 0.19018826981554557⟩]
  | 62 => [⟨1, -1, 0.18467439092237178⟩, ⟨3, -3, 0.1486770096793976⟩, ⟨3, -1, 0.11516471649044517⟩, ⟨5, -3, 0.1793112203849454⟩, ⟨5, -1, -0.08300496597356405⟩]
  | 63 => [⟨5, -4, 0.19018826981554557⟩]
  | 64 => [⟨2, 1, 0.1486770096793976⟩, ⟨4, 1, -0.09932258459927992⟩, ⟨6, 1, 0.022177545476549994⟩, ⟨6, 5, -0.1801712311720527⟩]
  | 65 => [⟨0, 0, 0.28209479177387814⟩, ⟨4, 0, -0.1795148674924679⟩, ⟨4, 4, -0.15171775404828514⟩, ⟨6, 0, 0.07112638015958425⟩, ⟨6, 4, -0.18818271355849853⟩]
  | 66 => [⟨3, -1, 0.28209479177387814⟩]
  | 67 => [⟨2, 0, 0.20230065940342062⟩, ⟨2, 2, 0.058399170081901854⟩, ⟨4, 0, -0.15078600877302686⟩, ⟨4, 2, -0.16858388283618386⟩]
  | 68 => [⟨2, -1, 0.23359668032760741⟩, ⟨4, -1, 0.23841361350444806⟩]
  | 69 => [⟨2, -2, -0.058399170081901854⟩, ⟨4, -2, 0.16858388283618386⟩]
  | 70 => [⟨1, 1, -0.058399170081901854⟩, ⟨3, 1, 0.1456731240789439⟩, ⟨3, 3, 0.09403159725795937⟩, ⟨5, 1, -0.0656211873953095⟩, ⟨5, 3, -0.14175796661021045⟩]
  | 71 => [⟨1, 0, 0.23359668032760741⟩, ⟨3, 0, 0.05947080387175903⟩, ⟨3, 2, -0.11516471649044517⟩, ⟨5, 0, -0.1694331772935932⟩, ⟨5, 2, -0.17361734258475534⟩]
  | 72 => [⟨1, -1, 0.20230065940342062⟩, ⟨3, -1, 0.126156626101008⟩, ⟨5, -1, 0.22731846124334898⟩]
  | 73 => [⟨3, -2, 0.11516471649044517⟩, ⟨5, -2, 0.17361734258475534⟩]
  | 74 => [⟨1, -1, 0.058399170081901854⟩, ⟨3, -3, -0.09403159725795937⟩, ⟨3, -1, -0.1456731240789439⟩, ⟨5, -3, 0.14175796661021045⟩, ⟨5, -1, 0.0656211873953095⟩]
  | 75 => [⟨2, 2, -0.09403159725795937⟩, ⟨4, 2, 0.13325523051897814⟩, ⟨4, 4, 0.11752006695060024⟩, ⟨6, 2, -0.04435509095309999⟩, ⟨6, 4, -0.1214714192760309⟩]
  | 76 => [⟨2, 1, 0.11516471649044517⟩, ⟨4, 1, 0.10257992428141023⟩, ⟨4, 3, -0.06785024228911189⟩, ⟨6, 1, -0.08589326429043577⟩, ⟨6, 3, -0.16297101049475005⟩]
  | 77 => [⟨0, 0, 0.28209479177387814⟩, ⟨2, 0, 0.126156626101008⟩, ⟨2, 2, -0.1456731240789439⟩, ⟨4, 0, 0.025644981070352558⟩, ⟨4, 2, -0.11468784191000729⟩, ⟨6, 0, -0.17781595039896067⟩, ⟨6, 2, -0.17178652858087154⟩]
  | 78 => [⟨3, 0, 0.28209479177387814⟩]
  | 79 => [⟨2, -1, -0.14304816810266882⟩, ⟨4, -1, 0.19466390027300617⟩]
  | 80 => [⟨2, 0, 0.2477666950834761⟩, ⟨4, 0, 0.24623252122982908⟩]
  | 81 => [⟨2, 1, -0.14304816810266882⟩, ⟨4, 1, 0.19466390027300617⟩]
  | 82 => [⟨3, -2, -0.18806319451591874⟩, ⟨5, -2, 0.14175796661021045⟩]
  | 83 => [⟨1, -1, -0.14304816810266882⟩, ⟨3, -1, 0.05947080387175903⟩, ⟨5, -1, 0.21431790057875125⟩]
  | 84 => [⟨1, 0, 0.2477666950834761⟩, ⟨3, 0, 0.168208834801344⟩, ⟨5, 0, 0.23961469724456466⟩]
  | 85 => [⟨1, 1, -0.14304816810266882⟩, ⟨3, 1, 0.05947080387175903⟩, ⟨5, 1, 0.21431790057875125⟩]
  | 86 => [⟨3, 2, -0.18806319451591874⟩, ⟨5, 2, 0.14175796661021045⟩]
  | 87 => [⟨4, -3, -0.20355072686733566⟩, ⟨6, -3, 0.10864734032983336⟩]
  | 88 => [⟨2, -2, -0.18806319451591874⟩, ⟨4, -2, -0.04441841017299272⟩, ⟨6, -2, 0.17742036381239995⟩]
  | 89 => [⟨2, -1, 0.05947080387175903⟩, ⟨4, -1, 0.09932258459927992⟩, ⟨6, -1, 0.22177545476549995⟩]
  | 90 => [⟨0, 0, 0.28209479177387814⟩, ⟨2, 0, 0.168208834801344⟩, ⟨4, 0, 0.15386988642211533⟩, ⟨6, 0, 0.23708793386528085⟩]
  | 91 => [⟨3, 1, 0.28209479177387814⟩]
  | 92 => [⟨2, -2, -0.058399170081901854⟩, ⟨4, -2, 0.16858388283618386⟩]
  | 93 => [⟨2, 1, 0.23359668032760741⟩, ⟨4, 1, 0.23841361350444806⟩]
  | 94 => [⟨2, 0, 0.20230065940342062⟩, ⟨2, 2, -0.058399170081901854⟩, ⟨4, 0, -0.15078600877302686⟩, ⟨4, 2, 0.16858388283618386⟩]
  | 95 => [⟨1, -1, -0.058399170081901854⟩, ⟨3, -3, -0.09403159725795937⟩, ⟨3, -1, 0.1456731240789439⟩, ⟨5, -3, 0.14175796661021045⟩, ⟨5, -1, -0.0656211873953095⟩]
  | 96 => [⟨3, -2, 0.11516471649044517⟩, ⟨5, -2, 0.17361734258475534⟩]
  | 97 => [⟨1, 1, 0.20230065940342062⟩, ⟨3, 1, 0.126156626101008⟩, ⟨5, 1, 0.22731846124334898⟩]
  | 98 => [⟨1, 0, 0.23359668032760741⟩, ⟨3, 0, 0.05947080387175903⟩, ⟨3, 2, 0.11516471649044517⟩, ⟨5, 0, -0.1694331772935932⟩, ⟨5, 2, 0.17361734258475534⟩]
  | 99 => [⟨1, 1, -0.058399170081901854⟩, ⟨3, 1, 0.1456731240789439⟩, ⟨3, 3, -0.09403159725795937⟩, ⟨5, 1, -0.0656211873953095⟩, ⟨5, 3, 0.14175796661021045⟩]
  | 100 => [⟨2, -2, -0.09403159725795937⟩, ⟨4, -4, -0.11752006695060024⟩, ⟨4, -2, 0.13325523051897814⟩, ⟨6, -4, 0.1214714192760309⟩, ⟨6, -2, -0.04435509095309999⟩]
  | 101 => [⟨2, -1, 0.11516471649044517⟩, ⟨4, -3, 0.06785024228911189⟩, ⟨4, -1, 0.10257992428141023⟩, ⟨6, -3, 0.16297101049475005⟩, ⟨6, -1, -0.08589326429043577⟩]
  | 102 => [⟨2, -2, 0.1456731240789439⟩, ⟨4, -2, 0.11468784191000729⟩, ⟨6, -2, 0.17178652858087154⟩]
  | 103 => [⟨2, 1, 0.05947080387175903⟩, ⟨4, 1, 0.09932258459927992⟩, ⟨6, 1, 0.22177545476549995⟩]
  | 104 => [⟨0, 0, 0.28209479177387814⟩, ⟨2, 0, 0.126156626101008⟩, ⟨2, 2, 0.1456731240789439⟩, ⟨4, 0, 0.025644981070352558⟩, ⟨4, 2, 0.11468784191000729⟩, ⟨6, 0, -0.17781595039896067⟩, ⟨6, 2, 0.17178652858087154⟩]
  | 105 => [⟨3, 2, 0.28209479177387814⟩]
  | 106 => [⟨2, -1, -0.18467439092237178⟩, ⟨4, -3, 0.19947114020071635⟩, ⟨4, -1, 0.07539300438651343⟩]
  | 107 => [⟨2, 2, 0.18467439092237178⟩, ⟨4, 2, 0.21324361862292307⟩]
  | 108 => [⟨2, 1, 0.18467439092237178⟩, ⟨4, 1, -0.07539300438651343⟩, ⟨4, 3, 0.19947114020071635⟩]
  | 109 => [⟨5, -4, 0.19018826981554557⟩]
  | 110 => [⟨1, -1, -0.18467439092237178⟩, ⟨3, -3, 0.1486770096793976⟩, ⟨3, -1, -0.11516471649044517⟩, ⟨5, -3, 0.1793112203849454⟩, ⟨5, -1, 0.08300496597356405⟩]
  | 111 => [⟨5, 2, 0.19018826981554557⟩]
  | 112 => [⟨1, 1, 0.18467439092237178⟩, ⟨3, 1, 0.11516471649044517⟩, ⟨3, 3, 0.1486770096793976⟩, ⟨5, 1, -0.08300496597356405⟩, ⟨5, 3, 0.1793112203849454⟩]
  | 113 => [⟨1, 0, 0.18467439092237178⟩, ⟨3, 0, -0.18806319451591874⟩, ⟨5, 0, 0.05357947514468781⟩, ⟨5, 4, 0.19018826981554557⟩]
  | 114 => [⟨2, -1, 0.1486770096793976⟩, ⟨4, -1, -0.09932258459927992⟩, ⟨6, -5, 0.1801712311720527⟩, ⟨6, -1, 0.022177545476549994⟩]
  | 115 => [⟨4, -4, 0.15171775404828514⟩, ⟨6, -4, 0.18818271355849853⟩]
  | 116 => [⟨2, -1, -0.11516471649044517⟩, ⟨4, -3, 0.06785024228911189⟩, ⟨4, -1, -0.10257992428141023⟩, ⟨6, -3, 0.16297101049475005⟩, ⟨6, -1, 0.08589326429043577⟩]
  | 117 => [⟨2, 2, -0.18806319451591874⟩, ⟨4, 2, -0.04441841017299272⟩, ⟨6, 2, 0.17742036381239995⟩]
  | 118 => [⟨2, 1, 0.11516471649044517⟩, ⟨4, 1, 0.10257992428141023⟩, ⟨4, 3, 0.06785024228911189⟩, ⟨6, 1, -0.08589326429043577⟩, ⟨6, 3, 0.16297101049475005⟩]
  | 119 => [⟨0, 0, 0.28209479177387814⟩, ⟨4, 0, -0.1795148674924679⟩, ⟨4, 4, 0.15171775404828514⟩, ⟨6, 0, 0.07112638015958425⟩, ⟨6, 4, 0.18818271355849853⟩]
  | 120 => [⟨3, 3, 0.28209479177387814⟩]
  | 121 => [⟨2, -2, -0.2261790131595403⟩, ⟨4, -4, 0.23032943298089034⟩, ⟨4, -2, 0.04352817137756816⟩]
  | 122 => [⟨4, 3, 0.16286750396763996⟩]
  | 123 => [⟨2, 2, 0.2261790131595403⟩, ⟨4, 2, -0.04352817137756816⟩, ⟨4, 4, 0.23032943298089034⟩]
  | 124 => [⟨1, -1, -0.2261790131595403⟩, ⟨3, -1, 0.09403159725795937⟩, ⟨5, -5, 0.2455320005465369⟩, ⟨5, -1, -0.01694331772935932⟩]
  | 125 => [⟨3, -2, -0.1486770096793976⟩, ⟨5, -4, 0.1552880720369528⟩, ⟨5, -2, 0.04482780509623635⟩]
  | 126 => [⟨3, 3, -0.21026104350168⟩, ⟨5, 3, 0.12679217987703037⟩]
  | 127 => [⟨3, 2, 0.1486770096793976⟩, ⟨5, 2, -0.04482780509623635⟩, ⟨5, 4, 0.1552880720369528⟩]
  | 128 => [⟨1, 1, 0.2261790131595403⟩, ⟨3, 1, -0.09403159725795937⟩, ⟨5, 1, 0.01694331772935932⟩, ⟨5, 5, 0.2455320005465369⟩]
  | 129 => [⟨6, -6, 0.25480059867297505⟩]
  | 130 => [⟨2, -1, -0.1486770096793976⟩, ⟨4, -1, 0.09932258459927992⟩, ⟨6, -5, 0.1801712311720527⟩, ⟨6, -1, -0.022177545476549994⟩]
  | 131 => [⟨2, -2, 0.09403159725795937⟩, ⟨4, -4, -0.11752006695060024⟩, ⟨4, -2, -0.13325523051897814⟩, ⟨6, -4, 0.1214714192760309⟩, ⟨6, -2, 0.04435509095309999⟩]
  | 132 => [⟨4, 3, -0.20355072686733566⟩, ⟨6, 3, 0.10864734032983336⟩]
  | 133 => [⟨2, 2, -0.09403159725795937⟩, ⟨4, 2, 0.13325523051897814⟩, ⟨4, 4, -0.11752006695060024⟩, ⟨6, 2, -0.04435509095309999⟩, ⟨6, 4, 0.1214714192760309⟩]
  | 134 => [⟨2, 1, 0.1486770096793976⟩, ⟨4, 1, -0.09932258459927992⟩, ⟨6, 1, 0.022177545476549994⟩, ⟨6, 5, 0.1801712311720527⟩]
  | 135 => [⟨0, 0, 0.28209479177387814⟩, ⟨2, 0, -0.21026104350168⟩, ⟨4, 0, 0.07693494321105766⟩, ⟨6, 0, -0.011854396693264043⟩, ⟨6, 6, 0.25480059867297505⟩]
  | _ => []

/-- Lines 208-352 `expandYlmProd(lm1, lm2)`. -/
def expand (lm1 lm2 : Nat) : List Term :=
  let p := if lm2 > lm1 then (lm2, lm1) else (lm1, lm2)
  prodTable (p.2 + (p.1 * (p.1 + 1)) / 2)

/-- Lines 361-399 `YlmPrime<l,m>`: components x, y, z. -/
def prime (l m : ℤ) (x y z : ℝ) : ℝ × ℝ × ℝ :=
  let r := fun i j : ℤ => Y i j x y z
  let L : ℝ := l
  let M : ℝ := m
  let rz := if l > 0 then Real.sqrt ((L * L - M * M) * (2 * L + 1) / (2 * L - 1)) * r (l - 1) m else 0
  if m = 0 then
    if l > 1 then
      let alpha := Real.sqrt (0.5 * L * (L - 1) * (2 * L + 1) / (2 * L - 1))
      (-alpha * r (l - 1) 1, -alpha * r (l - 1) (-1), rz)
    else (0, 0, rz)
  else
    let alphaM := 0.5 * Real.sqrt ((L - M) * (L - M - 1) * (2 * L + 1) / (2 * L - 1))
    let alphaP := 0.5 * Real.sqrt ((L + M) * (L + M - 1) * (2 * L + 1) / (2 * L - 1))
    if m > 0 then
      let a := if l > m + 1 then (-(r (l - 1) (m + 1) * alphaM), -(r (l - 1) (-(m + 1)) * alphaM)) else (0, 0)
      let b := if l ≥ m then (a.1 + r (l - 1) (m - 1) * (alphaP * if m = 1 then Real.sqrt 2 else 1),
        a.2 - r (l - 1) (-(m - 1)) * (alphaP * if m = 1 then 0 else 1)) else a
      (b.1, b.2, rz)
    else
      let a := if -l ≤ m then (r (l - 1) (m + 1) * (alphaM * if m = -1 then 0 else 1),
        r (l - 1) (-(m + 1)) * (alphaM * if m = -1 then Real.sqrt 2 else 1)) else (0, 0)
      let b := if -l < m - 1 then (a.1 - r (l - 1) (m - 1) * alphaP, a.2 + r (l - 1) (-(m - 1)) * alphaP) else a
      (b.1, b.2, rz)

end
end Jdftx.Ylm
