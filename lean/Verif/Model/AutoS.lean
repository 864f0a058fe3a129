import Verif.Model.FftSuitable
import Mathlib.Algebra.Order.Floor.Ring
import Mathlib.Algebra.Order.Field.Basic

/-!
# Model of the automatic choice of the FFT box (jdftx/core/GridInfo.cpp:166-243)

All the integers involved are non-negative (absolute values, their gcds, and products), so they are `Nat`
here; machine overflow is not modelled. Remainder by zero is `.ub`. `vector3<int>` is `Fin 3 → Nat`.
-/
namespace Jdftx.Grid

/-- vector3.h:157-164, the loop of `gcd`, on non-negative arguments; `y` decreases in each pass, so `y+1`
passes always suffice. -/
def gcdLoop : Nat → Nat → Nat → Nat
  | 0, x, _ => x
  | fuel+1, x, y => if y = 0 then x else gcdLoop fuel y (x % y)

/-- vector3.h:157-164 `gcd`. -/
def cgcd (x y : Nat) : Nat := gcdLoop (y + 1) x y

/-- `a % b != 0` (C++ `int` remainder: undefined for `b = 0`). -/
def modNZ (a b : Nat) : Res Bool := if b = 0 then .error .ub else .ok (decide (a % b ≠ 0))

/-- The state changed by `processSb`. -/
structure SbState where
  Sb : Fin 3 → Nat
  done : Fin 3 → Bool

/-- GridInfo.cpp:214-218: contributions of the symmetry operations to `ratios`. -/
def ratiosOf (rots : List (Fin 3 → Fin 3 → Int)) (j k : Fin 3) : Nat :=
  rots.foldl (fun r m => if m j k ≠ 0 then cgcd r (m j k).natAbs else r) 0

/-- GridInfo.cpp:172: `(ratios(j,k)*Sb[j])%Sb[k] || (ratios(k,j)*Sb[k])%Sb[j]` with short circuit. -/
def violates (r : Fin 3 → Fin 3 → Nat) (Sb : Fin 3 → Nat) (j k : Fin 3) : Res Bool := do
  if ← modNZ (r j k * Sb j) (Sb k) then return true
  else modNZ (r k j * Sb k) (Sb j)

/-- GridInfo.cpp:178-185: new basis entry for direction `k` linked to `j`. -/
def extend (r : Fin 3 → Fin 3 → Nat) (Sb : Fin 3 → Nat) (j k : Fin 3) : Fin 3 → Nat :=
  if r k j ≠ 0 then fun i => if i = k then Sb j * max 1 (r j k) else Sb i * r k j
  else fun i => if i = k then r j k * Sb j else Sb i

/-- GridInfo.cpp:170-188: body of the loop over `k` of `processSb`; `rec` is the recursive call. -/
def visit (rec : SbState → Fin 3 → Res SbState) (r : Fin 3 → Fin 3 → Nat) (j : Fin 3) (st : SbState) (k : Fin 3) :
    Res SbState :=
  if j ≠ k ∧ (r j k ≠ 0 ∨ r k j ≠ 0) then
    if st.Sb k ≠ 0 then do
      let v ← violates r st.Sb j k
      return if v then { st with Sb := fun _ => 1 } else st
    else rec { st with Sb := extend r st.Sb j k } k
  else .ok st

/-- GridInfo.cpp:167-189 `processSb(Sb, j, ratios, dimsDone)`; the recursion takes fuel. -/
def processSb (r : Fin 3 → Fin 3 → Nat) : Nat → SbState → Fin 3 → Res SbState
  | 0, _, _ => .error .diverge
  | fuel+1, st, j => do
    let st := { st with done := fun i => if i = j then true else st.done i }
    let st ← visit (processSb r fuel) r j st 0
    let st ← visit (processSb r fuel) r j st 1
    visit (processSb r fuel) r j st 2

/-- vector3.h:167-171 `gcdReduce`. -/
def gcdReduce (d : Fin 3 → Nat) : Res (Fin 3 → Nat) :=
  let g := cgcd (cgcd (d 0) (d 1)) (d 2)
  if g = 0 then .error .ub else .ok fun i => d i / g

/-- GridInfo.cpp:228: `if(Sb[k]) isSuitable = isSuitable && fftSuitable(Sb[k])`. -/
def suitEntry (fuel : Nat) (acc : Bool) (n : Nat) : Res Bool :=
  if n ≠ 0 then (if acc then fftSuitable fuel n else .ok false) else .ok acc

/-- GridInfo.cpp:227-232. -/
def makeSuitable (fuel : Nat) (Sb : Fin 3 → Nat) : Res (Fin 3 → Nat) := do
  let b ← suitEntry fuel true (Sb 0)
  let b ← suitEntry fuel b (Sb 1)
  let b ← suitEntry fuel b (Sb 2)
  return if b then Sb else fun k => if Sb k ≠ 0 then 1 else 0

/-- scalar.h:52 `ceildiv`. -/
def ceildiv (num den : Nat) : Nat := (num + den - 1) / den

/-- GridInfo.cpp:234-238: starting value of `scaleSb`. -/
def scaleStart (Smin Sb : Fin 3 → Nat) : Nat :=
  [0, 1, 2].foldl (fun acc (k : Fin 3) =>
    if Sb k ≠ 0 then (if 2 * ceildiv (Smin k) (2 * Sb k) > acc then 2 * ceildiv (Smin k) (2 * Sb k) else acc)
    else acc) 0

/-- GridInfo.cpp:239: `while(!fftSuitable(scaleSb)) scaleSb += 2`; `fuel'` bounds the iterations. -/
def scaleLoop (fuel : Nat) : Nat → Nat → Res Nat
  | 0, _ => .error .diverge
  | fuel'+1, s => do
    let b ← fftSuitable fuel s
    if b then return s else scaleLoop fuel fuel' (s + 2)

/-- GridInfo.cpp:222-242: one pass of the loop over `j`; state is `(S, dimsDone)`. -/
def block (fuel : Nat) (r : Fin 3 → Fin 3 → Nat) (Smin : Fin 3 → Nat) (st : SbState) (j : Fin 3) : Res SbState :=
  if st.done j then .ok st else do
    let st' ← processSb r fuel { Sb := fun i => if i = j then 1 else 0, done := st.done } j
    let Sb ← gcdReduce st'.Sb
    let Sb ← makeSuitable fuel Sb
    let scale ← scaleLoop fuel fuel (scaleStart Smin Sb)
    return { Sb := fun i => st.Sb i + Sb i * scale, done := st'.done }

/-- GridInfo.cpp:213-243: the automatically determined `S`. -/
def autoS (fuel : Nat) (rots : List (Fin 3 → Fin 3 → Int)) (Smin : Fin 3 → Nat) : Res (Fin 3 → Nat) := do
  let r := ratiosOf rots
  let st ← block fuel r Smin { Sb := fun _ => 0, done := fun _ => false } 0
  let st ← block fuel r Smin st 1
  let st ← block fuel r Smin st 2
  return st.Sb

/-- GridInfo.cpp:208: `Smin[k] = max(1, 4*int(ceil(max(Gmax, 0.5*GmaxRho) * |R_k| / (2 pi))))`, over any ordered
field with `len k` the length of lattice vector `k`. -/
def sminOf {K : Type} [Field K] [LinearOrder K] [FloorRing K] (Gmax GmaxRho twoPi : K) (len : Fin 3 → K)
    (k : Fin 3) : Nat :=
  (max 1 (4 * ⌈max Gmax (GmaxRho / 2) * len k / twoPi⌉)).toNat

/-- Symmetries.cpp:594-611 `checkFFTbox`: the first test, for one operation. -/
def commensurate (S : Fin 3 → Nat) (m : Fin 3 → Fin 3 → Int) : Prop :=
  ∀ i j, (((S i : Int) * m i j).tmod (S j) = 0)

end Jdftx.Grid
