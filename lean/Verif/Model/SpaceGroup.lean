import Verif.Model.Mat3
import Mathlib.Algebra.Ring.Int.Defs

/-!
# Model of `SpaceGroupOp` (jdftx/core/matrix3.h:337-359)
-/
namespace Jdftx.M3

variable {K : Type} [CommRing K]

/-- matrix3.h:338-340. -/
structure Op (K : Type) where
  rot : Mat Int
  a : V3 K

/-- matrix3.h:342, default arguments. -/
def Op.one : Op K := ⟨diag 1 1 1, vec 0 0 0⟩

/-- matrix3.h:344 `applyReal`. -/
def Op.applyReal (op : Op K) (r : V3 K) : V3 K := fun i => mulMV (castMat op.rot) r i + op.a i

/-- matrix3.h:345 `applyRecip`. -/
def Op.applyRecip (op : Op K) (k : V3 K) : V3 K := mulVM k (castMat op.rot)

/-- matrix3.h:348-350 `operator*`. -/
def Op.mul (p q : Op K) : Op K := ⟨mulMM p.rot q.rot, fun i => mulMV (castMat p.rot) q.a i + p.a i⟩

/-- matrix3.h:353-358 `inv`. -/
def Op.inv (op : Op K) : Op K :=
  let rot := smul (det op.rot) (adjugate op.rot)
  ⟨rot, fun i => -(mulMV (castMat rot) op.a i)⟩

end Jdftx.M3
