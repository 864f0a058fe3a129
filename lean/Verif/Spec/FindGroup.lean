import Verif.Model.FindGroup
import Verif.Spec.Symmetrize

/-!
# Specification for C90

Positions are in lattice coordinates; lattice vectors have integer coordinates.
-/
namespace Jdftx.FindGroup
open Jdftx.M3
noncomputable section

/-- The vector is within `δ` of a lattice vector (in each coordinate). -/
def NearLattice (δ : ℝ) (v : V3 ℝ) : Prop := ∃ n : V3 Int, ∀ k, |v k - n k| < δ

/-- The operation takes atom `a` of the species to within `δ` of a periodic image of atom `b`. -/
def Takes (δ : ℝ) (sp : Species) (op : Op ℝ) (a b : Nat) : Prop :=
  NearLattice δ fun k => op.applyReal (sp.pos a) k - sp.pos b k

/-- The operation maps the crystal onto itself within `δ`: every atom goes to an atom of the same species whose magnetic moment
and motion constraint are those of the rotated atom. -/
def MapsCrystal (δ : ℝ) (c : Cfg) (op : Op ℝ) : Prop :=
  ∀ sp ∈ c.species, ∀ a < sp.n, ∃ b < sp.n, admissible c sp op.rot a b ∧ Takes δ sp op a b

/-- The rotations form a group of integer matrices of determinant ±1, without repetitions. -/
structure PointGroup (rots : List (Mat Int)) : Prop where
  one : diag 1 1 1 ∈ rots
  mul : ∀ M ∈ rots, ∀ N ∈ rots, mulMM M N ∈ rots
  inv : ∀ M ∈ rots, ∃ N ∈ rots, mulMM N M = diag 1 1 1
  unimodular : ∀ M ∈ rots, det M = 1 ∨ det M = -1
  nodup : rots.Nodup

/-- No mesh assertion of the lookup tables fails. -/
def MeshOk (c : Cfg) : Prop := ∀ sp ∈ c.species, (∀ k, 0 < sp.S k) ∧ ∀ k, c.thr * sp.S k < 0.5

/-- The crystal is not marginally symmetric. `κ` bounds the absolute row sums of the rotations. Atoms of a species are separated
by more than `(κ+1)·thr`; the tests of moments and constraints are exact, i.e. consistent with composition; and any two offsets
that bring rotated atoms onto admissible ones and agree (up to lattice vectors) within `(κ+1)·thr` agree within `thr/22`. -/
structure Sharp (c : Cfg) (rots : List (Mat Int)) (κ : ℝ) : Prop where
  thr_pos : 0 < c.thr
  thr_small : (κ + 2) * c.thr < 1
  rowSum : ∀ M ∈ rots, ∀ i, |(M i 0 : ℝ)| + |(M i 1 : ℝ)| + |(M i 2 : ℝ)| ≤ κ
  separated : ∀ sp ∈ c.species, ∀ a < sp.n, ∀ b < sp.n, NearLattice ((κ + 1) * c.thr) (fun k => sp.pos a k - sp.pos b k) → a = b
  kind_one : ∀ sp ∈ c.species, ∀ a < sp.n, admissible c sp (diag 1 1 1) a a
  kind_mul : ∀ sp ∈ c.species, ∀ M ∈ rots, ∀ N ∈ rots, ∀ a < sp.n, ∀ b < sp.n, ∀ d < sp.n,
    admissible c sp N a b → admissible c sp M b d → admissible c sp (mulMM M N) a d
  gap : ∀ M ∈ rots, ∀ sp ∈ c.species, ∀ sp' ∈ c.species, ∀ a < sp.n, ∀ b < sp.n, ∀ a' < sp'.n, ∀ b' < sp'.n,
    admissible c sp M a b → admissible c sp' M a' b' →
    NearLattice ((κ + 1) * c.thr) (fun k => (sp.pos b k - mulMV (castMat M) (sp.pos a) k) - (sp'.pos b' k - mulMV (castMat M) (sp'.pos a') k)) →
    NearLattice (c.thr / 22) (fun k => (sp.pos b k - mulMV (castMat M) (sp.pos a) k) - (sp'.pos b' k - mulMV (castMat M) (sp'.pos a') k))

/-- The first species in the list has atoms, or none has. -/
def FirstUsed (c : Cfg) : Prop := (∃ sp l, c.species = sp :: l ∧ 0 < sp.n) ∨ ∀ sp ∈ c.species, sp.n = 0

/-- Potential of an electric field along periodic directions at lattice coordinates `x`, as applied to the electrons
(core/Coulomb.cpp:315-324) and to the ions (302-310). -/
def wavePotential (E x : V3 ℝ) : ℝ := -∑ k, E k * Real.sin (2 * Real.pi * x k) / (2 * Real.pi)

end
end Jdftx.FindGroup
