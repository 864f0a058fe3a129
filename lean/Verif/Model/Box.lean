import Verif.Model.Outcome

/-!
# Model of grid indexing and grid loops

`GridInfo` index functions (jdftx/core/GridInfo.h:128-145), the loop macros (jdftx/core/LoopMacros.h:30-133) and
`COMPUTE_fullRefIndices` (jdftx/core/Operators_internal.h:32-39). Grid sizes are natural numbers, coordinates and indices are
integers without overflow.
-/
namespace Jdftx.Box

/-- `vector3<int> S`: sample counts. -/
structure Size where
  s0 : Nat
  s1 : Nat
  s2 : Nat
  deriving DecidableEq, Repr

/-- `vector3<int>`: grid coordinates. -/
structure IV where
  x : Int
  y : Int
  z : Int
  deriving DecidableEq, Repr

/-- GridInfo.h:97, GridInfo.cpp: `nr = S[0]*S[1]*S[2]`. -/
def nr (S : Size) : Nat := S.s0 * S.s1 * S.s2

/-- GridInfo.h:98: `nG = S[0]*S[1]*(S[2]/2+1)`. -/
def nG (S : Size) : Nat := S.s0 * S.s1 * (S.s2 / 2 + 1)

/-- GridInfo.h:132-133. -/
def wrap1 (s : Nat) (g : Int) : Int := if g < 0 then g + s else g

/-- GridInfo.h:129-135 `wrapGcoords`. -/
def wrapGcoords (S : Size) (v : IV) : IV := ⟨wrap1 S.s0 v.x, wrap1 S.s1 v.y, wrap1 S.s2 v.z⟩

/-- GridInfo.h:136-138 `fullRindex`. -/
def fullRindex (S : Size) (v : IV) : Int := v.z + S.s2 * (v.y + S.s1 * v.x)

/-- GridInfo.h:139-141 `fullGindex`. -/
def fullGindex (S : Size) (v : IV) : Int := fullRindex S (wrapGcoords S v)

/-- GridInfo.h:142-145 `halfGindex`. -/
def halfGindex (S : Size) (v : IV) : Int :=
  let w := wrapGcoords S v
  w.z + ((S.s2 : Int) / 2 + 1) * (w.y + S.s1 * w.x)

/-! ### Loop macros: the list of index/coordinate pairs for which the body runs -/

/-- LoopMacros.h:32-35: initial coordinates. -/
def rStart (S : Size) (i : Nat) : IV := ⟨(i / (S.s2 * S.s1) : Nat), ((i / S.s2) % S.s1 : Nat), (i % S.s2 : Nat)⟩

/-- LoopMacros.h:41-49: advance to the next point. -/
def rNext (S : Size) (v : IV) : IV :=
  if v.z + 1 = S.s2 then
    if v.y + 1 = S.s1 then ⟨v.x + 1, 0, 0⟩ else ⟨v.x, v.y + 1, 0⟩
  else ⟨v.x, v.y, v.z + 1⟩

/-- LoopMacros.h:36-50: `while(i<iStop) { code; i++; if(i==iStop) break; ... }`. The first argument bounds the number of
iterations (`iStop` suffices). -/
def rLoopFrom (S : Size) (iStop : Nat) : Nat → Nat → IV → List (Nat × IV)
  | 0, _, _ => []
  | fuel+1, i, v =>
    if i < iStop then (i, v) :: (if i + 1 = iStop then [] else rLoopFrom S iStop fuel (i+1) (rNext S v)) else []

/-- LoopMacros.h:30-50 `THREAD_rLoop`. -/
def rLoop (S : Size) (iStart iStop : Nat) : List (Nat × IV) := rLoopFrom S iStop iStop iStart (rStart S iStart)

/-- LoopMacros.h:66, 73, 76, 79: fold a coordinate into the centred range. -/
def fold1 (s : Nat) (g : Int) : Int := if 2 * g > s then g - s else g

/-- LoopMacros.h:65-66: initial coordinates. -/
def gStart (S : Size) (i : Nat) : IV :=
  let v := rStart S i
  ⟨fold1 S.s0 v.x, fold1 S.s1 v.y, fold1 S.s2 v.z⟩

/-- LoopMacros.h:72-81: advance to the next point. -/
def gNext (S : Size) (v : IV) : IV :=
  let z := fold1 S.s2 (v.z + 1)
  if z = 0 then
    let y := fold1 S.s1 (v.y + 1)
    if y = 0 then ⟨fold1 S.s0 (v.x + 1), y, z⟩ else ⟨v.x, y, z⟩
  else ⟨v.x, v.y, z⟩

/-- LoopMacros.h:67-82: `while(true) { code; i++; if(i==iStop) break; ... }`; there is no test before the first iteration.
Running past the end of the range means the body is run for indices outside the grid: undefined behaviour. -/
def gLoopFrom (S : Size) (iStop : Nat) : Nat → Nat → IV → Res (List (Nat × IV))
  | 0, _, _ => .error .ub
  | fuel+1, i, v =>
    if i + 1 = iStop then .ok [(i, v)]
    else match gLoopFrom S iStop fuel (i+1) (gNext S v) with
      | .ok l => .ok ((i, v) :: l)
      | .error e => .error e

/-- LoopMacros.h:63-82 `THREAD_fullGspaceLoop`. `fuel` is the number of iterations after which the loop has certainly left
the grid; any value above `iStop` gives the same result. -/
def gLoop (S : Size) (fuel iStart iStop : Nat) : Res (List (Nat × IV)) := gLoopFrom S iStop fuel iStart (gStart S iStart)

/-- LoopMacros.h:98: `size2`. -/
def size2 (S : Size) : Nat := S.s2 / 2 + 1

/-- LoopMacros.h:100-101: initial coordinates. -/
def hStart (S : Size) (i : Nat) : IV :=
  ⟨fold1 S.s0 (i / (size2 S * S.s1) : Nat), fold1 S.s1 ((i / size2 S) % S.s1 : Nat), fold1 S.s2 (i % size2 S : Nat)⟩

/-- LoopMacros.h:107-116: advance to the next point. -/
def hNext (S : Size) (v : IV) : IV :=
  if v.z + 1 = size2 S then
    let y := fold1 S.s1 (v.y + 1)
    if y = 0 then ⟨fold1 S.s0 (v.x + 1), y, 0⟩ else ⟨v.x, y, 0⟩
  else ⟨v.x, v.y, v.z + 1⟩

/-- LoopMacros.h:102-117. -/
def hLoopFrom (S : Size) (iStop : Nat) : Nat → Nat → IV → List (Nat × IV)
  | 0, _, _ => []
  | fuel+1, i, v =>
    if i < iStop then (i, v) :: (if i + 1 = iStop then [] else hLoopFrom S iStop fuel (i+1) (hNext S v)) else []

/-- LoopMacros.h:97-117 `THREAD_halfGspaceLoop`. -/
def hLoop (S : Size) (iStart iStop : Nat) : List (Nat × IV) := hLoopFrom S iStop iStop iStart (hStart S iStart)

/-- LoopMacros.h:133 `IS_NYQUIST`. -/
def isNyquist (S : Size) (v : IV) : Bool := 2 * v.x - S.s0 = 0 || 2 * v.y - S.s1 = 0 || 2 * v.z - S.s2 = 0

/-! ### Mirror images (Operators_internal.h:32-39) -/

/-- Operators_internal.h:36. -/
def mirror1 (s : Nat) (v : Int) : Int := if v ≠ 0 then s - v else 0

/-- Operators_internal.h:33-38: index of `iG` in the full box. -/
def iFull (S : Size) (v : IV) : Int := fullRindex S (wrapGcoords S v)

/-- Operators_internal.h:36-39: index of the mirror image of `iG` in the full box. -/
def iFullRef (S : Size) (v : IV) : Int :=
  let w := wrapGcoords S v
  fullRindex S ⟨mirror1 S.s0 w.x, mirror1 S.s1 w.y, mirror1 S.s2 w.z⟩

end Jdftx.Box
