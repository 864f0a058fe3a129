import Verif.Spec.Box
import Verif.Model.BoxField

/-!
# Specification for C21-C23, C53
-/
namespace Jdftx.Box
open scoped ComplexConjugate

/-- `w` is the mirror image of `v` on the periodic grid: the coordinates add up to a multiple of the sample counts. -/
def Mirror (S : Size) (v w : IV) : Prop := (S.s0 : Int) ∣ v.x + w.x ∧ (S.s1 : Int) ∣ v.y + w.y ∧ (S.s2 : Int) ∣ v.z + w.z

/-- A full reciprocal-space array represents a real field: mirror images carry conjugate coefficients. -/
def HermitianFull (S : Size) (F : Arr) : Prop :=
  ∀ v w, ValidG S v → ValidG S w → Mirror S v w → F (fullGindex S w) = conj (F (fullGindex S v))

/-- A half reciprocal-space array represents a real field: wherever both a point and its mirror image are stored, they carry
conjugate coefficients. -/
def HermitianHalf (S : Size) (h : Arr) : Prop :=
  ∀ v w, ValidH S v → ValidH S w → Mirror S v w → h (halfGindex S w) = conj (h (halfGindex S v))

/-- The 3x3 symmetric traceless matrix stored as five components, at one grid point. -/
def Tensor.mat (T : Tensor Arr) (i : Int) : Fin 3 → Fin 3 → ℂ :=
  fun a b => match a, b with
    | 0, 0 => T.xxr i
    | 1, 1 => T.yyr i
    | 2, 2 => - T.xxr i - T.yyr i
    | 0, 1 => T.xy i
    | 1, 0 => T.xy i
    | 1, 2 => T.yz i
    | 2, 1 => T.yz i
    | 2, 0 => T.zx i
    | 0, 2 => T.zx i

end Jdftx.Box
