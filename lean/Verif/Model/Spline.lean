import Verif.Model.Outcome
import Mathlib.Algebra.Order.Archimedean.Real.Basic

/-!
# Model of quintic splines (jdftx/core/Spline.h, jdftx/core/Spline.cpp)

Exact real arithmetic. Vectors are functions together with a size; where the code indexes a coefficient array with an index that
depends on the evaluation point, indices outside the array are undefined behaviour.
-/
namespace Jdftx.Spline
noncomputable section

/-- Band `m` (offset of the column from the row) of the matrix: `band[m][i]` is in row `i` for `m ≥ 0` and in column `i` for `m < 0`. -/
abbrev Bands := Int → Nat → ℝ

/-- `band[m][i] += v`. -/
def bump (b : Bands) (m : Int) (i : Nat) (v : ℝ) : Bands := fun m' i' => b m' i' + if m' = m ∧ i' = i then v else 0

/-- Spline.cpp:30-31. -/
def off1 : ℝ := 13 / 33
def off2 : ℝ := 1 / 66

/-- Spline.cpp:32-34 (elements beyond the size `N-|m|` of a band do not exist; 0 here). -/
def bands0 (N : Nat) : Bands := fun m i =>
  if m = 0 ∧ i < N then 1
  else if (m = 1 ∨ m = -1) ∧ i + 1 < N then off1
  else if (m = 2 ∨ m = -2) ∧ i + 2 < N then off2
  else 0

/-- Spline.cpp:42 `extrap`. -/
def extrap (a b : Nat) : ℝ :=
  match a, b with
  | 0, 0 => 1
  | 0, 1 => -3
  | 0, 2 => 3
  | 1, 0 => 3
  | 1, 1 => -8
  | 1, 2 => 6
  | _, _ => 0

/-- Spline.cpp:37 `sign`. -/
def sgn (odd : Bool) : ℝ := if odd then -1 else 1

/-- Spline.cpp:38-48: boundary conditions. -/
def bandsBC (N : Nat) (odd : Bool) : Bands :=
  let b := bands0 N
  let b := bump b 0 1 (sgn odd * off2)
  let b := bump b 1 0 (sgn odd * off1)
  let b := bump b 2 0 (sgn odd * off2)
  let b := bump b (-1) (N-3) (off2 * extrap 0 0)
  let b := bump b 0 (N-2) (off2 * extrap 0 1)
  let b := bump b 1 (N-2) (off2 * extrap 0 2)
  let b := bump b (-2) (N-3) (off1 * extrap 0 0 + off2 * extrap 1 0)
  let b := bump b (-1) (N-2) (off1 * extrap 0 1 + off2 * extrap 1 1)
  bump b 0 (N-1) (off1 * extrap 0 2 + off2 * extrap 1 2)

/-- Spline.cpp:52-60, body of the forward sweep for row `i` and `m`. -/
def elim (N i m : Nat) (s : Bands × (Nat → ℝ)) : Bands × (Nat → ℝ) :=
  if i + m < N then
    let rot := s.1 (-m) i / s.1 0 i
    let b := (List.range' 1 (m - 1)).foldl (fun (b : Bands) (n : Nat) => bump b (n - m) (i + n) (-(rot * b n i))) s.1
    let b := (List.range' m (3 - m)).foldl (fun (b : Bands) (n : Nat) => if i + n < N then bump b (n - m) (i + m) (-(rot * b n i)) else b) b
    (b, Function.update s.2 (i + m) (s.2 (i + m) - rot * s.2 i))
  else s

/-- Spline.cpp:50-60 forward sweep, the first `k` rows. -/
def forward (N : Nat) (s : Bands × (Nat → ℝ)) : Nat → Bands × (Nat → ℝ)
  | 0 => s
  | k+1 => elim N k 2 (elim N k 1 (forward N s k))

/-- Spline.cpp:62-67 reverse sweep, rows `k-1` down to 0. -/
def reverse (N : Nat) (b : Bands) : Nat → (Nat → ℝ) → (Nat → ℝ)
  | 0, x => x
  | i+1, x =>
    let invDiag := 1 / b 0 i
    let x := if i + 1 < N then Function.update x i (x i - b 1 i * x (i + 1)) else x
    let x := if i + 2 < N then Function.update x i (x i - b 2 i * x (i + 2)) else x
    reverse N b i (Function.update x i (x i * invDiag))

/-- An array of `double`. -/
structure Arr where
  size : Nat
  f : Nat → ℝ

/-- Spline.cpp:24-77 `getCoeff`. Fewer than three samples make `band[-1][N-3]` undefined. -/
def getCoeff (samples : List ℝ) (odd : Bool) : Res Arr :=
  let N := samples.length
  if N < 3 then .error .ub
  else
    let x0 : Nat → ℝ := fun i => if odd ∧ i = 0 then 0 else samples.getD i 0
    let s := forward N (bandsBC N odd, x0) N
    let x := reverse N s.1 N s.2
    .ok ⟨N + 4, fun i =>
      if i = 0 then sgn odd * x 2
      else if i = 1 then sgn odd * x 1
      else if i < N + 2 then x (i - 2)
      else if i = N + 2 then extrap 0 0 * x (N-3) + extrap 0 1 * x (N-2) + extrap 0 2 * x (N-1)
      else extrap 1 0 * x (N-3) + extrap 1 1 * x (N-2) + extrap 1 2 * x (N-1)⟩

/-- `(int)x`: rounds towards zero. -/
def toInt (x : ℝ) : Int := if 0 ≤ x then ⌊x⌋ else ⌈x⌉

/-- Spline.h:75-80 conversion to Bernstein coefficients. -/
def bern (c : Nat → ℝ) : Nat → ℝ
  | 0 => (1/66) * (c 0 + 26 * c 1 + 66 * c 2 + 26 * c 3 + c 4)
  | 1 => (1/33) * (8 * c 1 + 33 * c 2 + 18 * c 3 + c 4)
  | 2 => (2/33) * (2 * c 1 + 15 * c 2 + 12 * c 3 + c 4)
  | 3 => (2/33) * (c 1 + 12 * c 2 + 15 * c 3 + 2 * c 4)
  | 4 => (1/33) * (c 1 + 18 * c 2 + 33 * c 3 + 8 * c 4)
  | _ => (1/66) * (c 1 + 26 * c 2 + 66 * c 3 + 26 * c 4 + c 5)

/-- Spline.h:67-81 `getBernsteinCoeffs`: `tR` and the Bernstein coefficients. -/
def getBernstein (coeff : Arr) (x : ℝ) : Res (ℝ × (Nat → ℝ)) :=
  let j := toInt x
  if 0 ≤ j ∧ j + 5 < coeff.size then .ok (x - j, bern fun i => coeff.f (j.toNat + i)) else .error .ub

/-- One stage of de Casteljau's reduction. -/
def casteljau (tL tR : ℝ) (b : Nat → ℝ) : Nat → ℝ := fun i => tL * b i + tR * b (i + 1)

/-- Spline.h:84-93 `value`. -/
def value (coeff : Arr) (x : ℝ) : Res ℝ :=
  match getBernstein coeff x with
  | .error e => .error e
  | .ok (tR, b) =>
    let tL := 1 - tR
    let c := casteljau tL tR b
    let d := casteljau tL tR c
    let c := casteljau tL tR d
    let d := casteljau tL tR c
    .ok (tL * d 0 + tR * d 1)

/-- Spline.h:96-105 `deriv`. -/
def deriv (coeff : Arr) (x : ℝ) : Res ℝ :=
  match getBernstein coeff x with
  | .error e => .error e
  | .ok (tR, b) =>
    let tL := 1 - tR
    let c := fun i => b (i + 1) - b i
    let d := casteljau tL tR c
    let c := casteljau tL tR d
    let d := casteljau tL tR c
    .ok (5 * (tL * d 0 + tR * d 1))

/-- Spline.h:119-122: one stage of the back-trace, from `n` to `n+1` coefficients:
`c[0]=0; for(i<n) { c[i] += tL*b[i]; c[i+1] = tR*b[i]; }`. -/
def backtrace (tL tR : ℝ) (n : Nat) (b : Nat → ℝ) : Nat → ℝ :=
  (List.range n).foldl (fun c i => Function.update (Function.update c i (c i + tL * b i)) (i + 1) (tR * b i)) (Function.update b 0 0)

/-- Spline.h:124-129. -/
def bernGrad (b : Nat → ℝ) : Nat → ℝ
  | 0 => (1/66) * b 0
  | 1 => (1/66) * (26 * b 0 + 16 * b 1 + 8 * b 2 + 4 * b 3 + 2 * b 4 + b 5)
  | 2 => (1/33) * (33 * b 0 + 33 * b 1 + 30 * b 2 + 24 * b 3 + 18 * b 4 + 13 * b 5)
  | 3 => (1/33) * (13 * b 0 + 18 * b 1 + 24 * b 2 + 30 * b 3 + 33 * b 4 + 33 * b 5)
  | 4 => (1/66) * (b 0 + 2 * b 1 + 4 * b 2 + 8 * b 3 + 16 * b 4 + 26 * b 5)
  | _ => (1/66) * b 5

/-- Spline.h:112-132 `valueGrad` (CPU). Starting values of the work arrays do not matter; 0 here. -/
def valueGrad (Evalue : ℝ) (Ecoeff : Arr) (x : ℝ) : Res Arr :=
  let j := toInt x
  let tR := x - j
  let tL := 1 - tR
  let b : Nat → ℝ := fun i => if i = 0 then tL else if i = 1 then tR else 0
  let c := backtrace tL tR 2 b
  let b := backtrace tL tR 3 c
  let c := backtrace tL tR 4 b
  let b := backtrace tL tR 5 c
  let c := bernGrad b
  if 0 ≤ j ∧ j + 5 < Ecoeff.size then
    .ok { Ecoeff with f := (List.range 6).foldl (fun f i => Function.update f (j.toNat + i) (f (j.toNat + i) + Evalue * c i)) Ecoeff.f }
  else .error .ub

end
end Jdftx.Spline
