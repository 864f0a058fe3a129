import Verif.Model.SpaceGroup
import Verif.Spec.BoxField
import Mathlib.Analysis.SpecialFunctions.Complex.Circle
import Mathlib.LinearAlgebra.Matrix.Defs
import Mathlib.Data.Matrix.Mul

/-!
# Specification for C33
-/
namespace Jdftx.Sym
open Jdftx.M3 Jdftx.Box
noncomputable section

/-- The operations agree up to a lattice translation. -/
def SameOp (p q : Op ℝ) : Prop := p.rot = q.rot ∧ ∀ k, ∃ n : Int, p.a k = q.a k + (n : ℝ)

/-- The list represents a space group, one operation per class modulo lattice translations. -/
structure IsSpaceGroup (sym : List (Op ℝ)) : Prop where
  one : ∃ p ∈ sym, SameOp p Op.one
  mul : ∀ p ∈ sym, ∀ q ∈ sym, ∃ r ∈ sym, SameOp r (p.mul q)
  unimodular : ∀ p ∈ sym, det p.rot = 1 ∨ det p.rot = -1
  distinct : sym.Pairwise fun p q => ¬SameOp p q

/-- Sample counts as a vector. -/
def cnt (S : Size) : V3 Int := vec S.s0 S.s1 S.s2

/-- The operation maps the real-space mesh to itself. -/
def MeshOp (S : Size) (op : Op ℝ) : Prop :=
  (∀ i j, cnt S j ∣ cnt S i * op.rot i j) ∧ ∀ k, ∃ n : Int, (cnt S k : ℝ) * op.a k = n

/-- A point of the real-space mesh (lattice coordinates), up to lattice translations. -/
def MeshPoint (S : Size) (r : V3 ℝ) : Prop := ∀ k, ∃ n : Int, (cnt S k : ℝ) * r k = n

/-- Reciprocal-lattice coordinates belonging to array element `i`. -/
def gOf (S : Size) (i : Nat) : V3 Int := vec (i / (S.s2 * S.s1) : Nat) ((i / S.s2) % S.s1 : Nat) (i % S.s2 : Nat)

/-- Value at a mesh point of the field with Fourier coefficients `x`. -/
def fieldAt (S : Size) (x : Arr) (r : V3 ℝ) : ℂ :=
  ∑ i ∈ Finset.range (nr S), x i * Complex.exp ((2 * Real.pi * ∑ k, (gOf S i k : ℝ) * r k : ℝ) * Complex.I)

/-- The field is unchanged by all operations. -/
def InvariantField (S : Size) (sym : List (Op ℝ)) (x : Arr) : Prop :=
  ∀ op ∈ sym, ∀ r, MeshPoint S r → fieldAt S x (op.applyReal r) = fieldAt S x r

/-- The positions agree up to a lattice translation. -/
def SamePos (r s : V3 ℝ) : Prop := ∀ k, ∃ n : Int, r k = s k + (n : ℝ)

/-- Atoms at positions `pos` are mapped onto each other by the operations as recorded in `atomMap`, and no two coincide. -/
structure AtomsOk (sym : List (Op ℝ)) (nAtoms : Nat) (pos : Nat → V3 ℝ) (atomMap : Nat → Nat → Nat) : Prop where
  range : ∀ a < nAtoms, ∀ q < sym.length, atomMap a q < nAtoms
  image : ∀ a < nAtoms, ∀ q (h : q < sym.length), SamePos (sym[q].applyReal (pos a)) (pos (atomMap a q))
  distinct : ∀ a < nAtoms, ∀ b < nAtoms, SamePos (pos a) (pos b) → a = b

/-- The forces (derivatives of the energy with respect to lattice coordinates) are compatible with the symmetries: the force on
the image of an atom, pulled back by the rotation, is the force on the atom. -/
def InvariantForces (sym : List (Op ℝ)) (nAtoms : Nat) (atomMap : Nat → Nat → Nat) (f : Nat → V3 ℝ) : Prop :=
  ∀ a < nAtoms, ∀ q (h : q < sym.length), ∀ k, ∑ l, (sym[q].rot l k : ℝ) * f (atomMap a q) l = f a k

/-- The Cartesian tensor is unchanged by all rotations (`R` has the lattice vectors as columns). -/
def InvariantTensor (R : Matrix (Fin 3) (Fin 3) ℝ) (sym : List (Op ℝ)) (m : Matrix (Fin 3) (Fin 3) ℝ) : Prop :=
  ∀ op ∈ sym, ∀ C : Matrix (Fin 3) (Fin 3) ℝ, C * R = R * Matrix.of (fun i j => (op.rot i j : ℝ)) → C * m * C.transpose = m

end
end Jdftx.Sym
