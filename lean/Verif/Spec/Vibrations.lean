import Verif.Model.Vibrations

/-!
# Specification for C105: vibrations
-/
namespace Jdftx.Vib
noncomputable section
open M3

variable {N ns : ℕ}

/-- SpeciesInfo.cpp:94-101: what a constraint leaves of a motion. -/
def Constraint.apply (c : Constraint) (v : V3 ℝ) : V3 ℝ :=
  if c.moveScale = 0 then 0 else match c.type with
  | .linear => fun k => dot v c.d * c.d k / dot c.d c.d
  | .planar => fun k => v k - dot v c.d * c.d k / dot c.d c.d
  | _ => v

/-- The symmetries are a group acting on the atoms by isometries. -/
structure Group (o : Sym N ns) : Prop where
  orth : ∀ r v w, dot (mulMV (rot o r) v) (mulMV (rot o r) w) = dot v w
  one : ∃ r, ∀ a, o.amap a r = a
  mul : ∀ r r', ∃ q, ∀ a, o.amap a q = o.amap (o.amap a r') r
  inv : ∀ r, ∃ q, mulMM (o.irot r) (o.irot q) = diag 1 1 1 ∧ ∀ a, o.amap (o.amap a r) q = a ∧ o.amap (o.amap a q) r = a

/-- There is no symmetry translation within the unit cell: no two symmetries have the same rotation. -/
def Primitive (o : Sym N ns) : Prop := Function.Injective o.irot

/-- Change of the gradient on atom `a` when the atoms are displaced by `u`, for the force constants `Φ`. -/
def response (Φ : Fin N → Fin N → Mat ℝ) (u : Disp N) (a : Fin N) : V3 ℝ := ∑ b, mulMV (Φ a b) (u b)

/-- The gradient is linear in the displacements with the force constants `Φ`; for central differences only its odd part is. -/
def Harmonic (grad : Disp N → Disp N) (central : Bool) (Φ : Fin N → Fin N → Mat ℝ) : Prop :=
  if central then ∀ u a, grad u a - grad (fun b => -u b) a = (2 : ℝ) • response Φ u a else ∀ u a, grad u a - grad (fun _ => 0) a = response Φ u a

/-- The force constants are second derivatives (in either order) and respect the symmetries. -/
structure ForceConstants (o : Sym N ns) (Φ : Fin N → Fin N → Mat ℝ) : Prop where
  symm : ∀ a b i j, Φ a b i j = Φ b a j i
  equivariant : ∀ r a b v, mulMV (Φ (o.amap b r) (o.amap a r)) (mulMV (rot o r) v) = mulMV (rot o r) (mulMV (Φ b a) v)

/-- The electronic dipole moment changes linearly with derivatives `D` that respect the symmetries. -/
structure Dipole (o : Sym N ns) (pel : Disp N → V3 ℝ) (central : Bool) (D : Fin N → Mat ℝ) : Prop where
  linear : if central then ∀ u, pel u - pel (fun b => -u b) = (2 : ℝ) • ∑ b, mulMV (D b) (u b) else ∀ u, pel u - pel (fun _ => 0) = ∑ b, mulMV (D b) (u b)
  equivariant : ∀ r a v, mulMV (D (o.amap a r)) (mulMV (rot o r) v) = mulMV (rot o r) (mulMV (D a) v)

/-- Displacing all atoms together has no effect on forces. -/
def TranslationInvariant (Φ : Fin N → Fin N → Mat ℝ) : Prop := ∀ a v, response Φ (fun _ => v) a = 0

/-- Constraints respect the symmetries (Symmetries.cpp:468). -/
def Covariant (o : Sym N ns) (c : Fin N → Constraint) : Prop :=
  (∀ a r, (c (o.amap a r)).moveScale = 0 ↔ (c a).moveScale = 0) ∧ ∀ a r v, (c (o.amap a r)).apply (mulMV (rot o r) v) = mulMV (rot o r) ((c a).apply v)

/-- No projection weight is so small that it is neglected although it is not zero. -/
def Resolved (o : Sym N ns) (thr : ℝ) (dirs : Fin N → Option (List (V3 ℝ))) : Prop :=
  ∀ a r, ∀ n ∈ (dirs a).getD [], ∀ m ∈ (dirs (o.amap a r)).getD [], |dot (mulMV (rot o r) n) m| < thr → dot (mulMV (rot o r) n) m = 0

/-- Number of elements that satisfy a condition. -/
def number (p : ℝ → Prop) [DecidablePred p] (l : List ℝ) : ℕ := (l.filter fun x => decide (p x)).length

end
end Jdftx.Vib
