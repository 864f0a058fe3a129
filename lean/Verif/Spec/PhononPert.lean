import Verif.Model.PhononPert
import Verif.Spec.Phonon
import Mathlib.Algebra.Group.Basic
import Mathlib.Data.Fintype.Basic

/-!
# Specification for C99
-/
namespace Jdftx.PhonPert
noncomputable section
open M3
open Phonon (prodSup getCell getUnit)

/-- Three orthogonal unit vectors. -/
def Orthonormal (B : Fin 3 → V3 ℝ) : Prop := ∀ i j, dot (B i) (B j) = if i = j then 1 else 0

/-- Unit vector. -/
def unit (j : Fin 3) : V3 ℝ := fun i => if i = j then 1 else 0

/-- Atom `a` of a supercell with `n` atoms per unit cell, moved by `k` unit cells. -/
def move (S : Box.Size) (n : Nat) (k : Box.IV) (a : Nat) : Nat :=
  let cell := getCell S (a / n : Nat)
  a % n + n * (getUnit S ⟨cell.x + k.x, cell.y + k.y, cell.z + k.z⟩).toNat

/-- `G` is the space group of the (unperturbed) supercell, including the translations by unit cells; it permutes the atoms of each species by `act` and rotates vectors
by the orthogonal matrices `rho`. The operations of the program are all elements of the group up to translations by unit cells, each once. -/
structure SpaceGroup (c : Cell) (o : Ops) (G : Type) [Group G] [Fintype G] where
  act : G → Nat → Nat → Nat
  rho : G → Mat ℝ
  tr : Box.IV → G
  op : Nat → G
  act_lt : ∀ g, ∀ sp < c.nSp, ∀ a < nTot c sp, act g sp a < nTot c sp
  act_one : ∀ sp < c.nSp, ∀ a < nTot c sp, act 1 sp a = a
  act_mul : ∀ g h, ∀ sp < c.nSp, ∀ a < nTot c sp, act (g * h) sp a = act g sp (act h sp a)
  rho_mul : ∀ g h v, mulMV (rho (g * h)) v = mulMV (rho g) (mulMV (rho h) v)
  rho_orth : ∀ g v w, dot (mulMV (rho g) v) (mulMV (rho g) w) = dot v w
  tr_act : ∀ k, ∀ sp < c.nSp, ∀ a < nTot c sp, act (tr k) sp a = move c.S (c.nAt sp) k a
  tr_rho : ∀ k v, mulMV (rho (tr k)) v = v
  op_rot : ∀ i < o.nSym, o.rot i = rho (op i)
  op_map : ∀ i < o.nSym, ∀ sp < c.nSp, ∀ a < nTot c sp, o.atomMap sp a i = act (op i) sp a
  all : ∀ g, ∃ k, ∃ i < o.nSym, g = tr k * op i
  once : ∀ k k', ∀ i < o.nSym, ∀ j < o.nSym, tr k * op i = tr k' * op j → i = j

/-- The threshold separates different displacements: what is equal within the threshold is equal. -/
structure Separated (c : Cell) (o : Ops) (B : Fin 3 → V3 ℝ) : Prop where
  pos : 0 < c.tol
  proj : ∀ sp < c.nSp, ∀ p ∈ pertSp c o B sp, ∀ q ∈ pertSp c o B sp,
    nrm2 (c.nAt sp * 3) (fun k l => projOf c o p k l - projOf c o q k l) < c.tol → ∀ k < c.nAt sp * 3, ∀ l < c.nAt sp * 3, projOf c o p k l = projOf c o q k l
  even : ∀ i < o.nSym, ∀ d, Basis.length (mulMV (o.rot i) (B d) + B d) < c.tol → mulMV (o.rot i) (B d) = -B d

/-- The response of the forces to displacements respects the space group: the response to the image of a displacement is the image of the response. -/
def Equivariant {c : Cell} {o : Ops} {G : Type} [Group G] [Fintype G] (s : SpaceGroup c o G) (f : Nat → Nat → V3 ℝ → Grad) : Prop :=
  ∀ g, ∀ sp < c.nSp, ∀ a < nTot c sp, ∀ d, ∀ sp2 < c.nSp, ∀ a2 < nTot c sp2,
    f sp (s.act g sp a) (mulMV (s.rho g) d) sp2 (s.act g sp2 a2) = mulMV (s.rho g) (f sp a d sp2 a2)

/-- No displacement causes a net force. -/
def NoNetForce (c : Cell) (f : Nat → Nat → V3 ℝ → Grad) : Prop :=
  ∀ sp < c.nSp, ∀ a < nTot c sp, ∀ d, ∑ sp2 ∈ Finset.range c.nSp, ∑ a2 ∈ Finset.range (nTot c sp2), f sp a d sp2 a2 = 0

/-- Central difference. -/
def central (f : Nat → Nat → V3 ℝ → Grad) (sp a : Nat) (d : V3 ℝ) : Grad := fun sp2 a2 => (1 / 2 : ℝ) • (f sp a d sp2 a2 - f sp a (-d) sp2 a2)

/-- The central difference is linear in the displacement (there is no cubic contribution to the forces; there may be a quadratic one). -/
def Linear (c : Cell) (f : Nat → Nat → V3 ℝ → Grad) : Prop :=
  ∀ sp < c.nSp, ∀ a < nTot c sp, ∀ d, ∀ sp2 < c.nSp, ∀ a2 < nTot c sp2, central f sp a d sp2 a2 = ∑ k, d k • central f sp a (unit k) sp2 a2

/-- The displacement in the opposite direction has the opposite response (perturbation theory). -/
def Odd (c : Cell) (f : Nat → Nat → V3 ℝ → Grad) : Prop :=
  ∀ sp < c.nSp, ∀ a < nTot c sp, ∀ d, ∀ sp2 < c.nSp, ∀ a2 < nTot c sp2, f sp a (-d) sp2 a2 = -f sp a d sp2 a2

/-- A rotation (in coordinates of the unit cell) maps the lattice of the supercell to itself. -/
def MapsSuper (S : Box.Size) (rot : Mat Int) : Prop :=
  ∀ v : V3 Int, ∃ w : V3 Int, ∀ i, mulMV rot (fun k => vec (S.s0 : Int) S.s1 S.s2 k * v k) i = vec (S.s0 : Int) S.s1 S.s2 i * w i

end
end Jdftx.PhonPert
