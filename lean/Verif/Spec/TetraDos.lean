import Verif.Model.TetraDos
import Mathlib.Data.Real.Basic
import Mathlib.LinearAlgebra.Matrix.Determinant.Basic
import Mathlib.LinearAlgebra.Matrix.Notation
import Mathlib.Logic.Relation

/-!
# What a density of states is

Independent of the code: the number of states of a band, and the part of a tetrahedron below an energy.
-/
namespace Jdftx.Tetra

/-- Integral of a function given by points on straight lines. -/
def area {K : Type} [Field K] : List (K × K) → K
  | [] => 0
  | [_] => 0
  | p :: q :: l => (q.1 - p.1) * (p.2 + q.2) / 2 + area (q :: l)

/-- Weighted number of states of a band: volume of each tetrahedron times the mean weight of its corners. -/
def states {K : Type} [Field K] (w : Nat → K) (tets : List (Tet K)) : K := (tets.map fun t => t.V * ((t.q.map w).sum / 4)).sum

/-- A band without gaps: wherever there are corner energies on both sides, some tetrahedron has corners on both sides. -/
def Gapless {K : Type} [LinearOrder K] (e : Nat → K) (tets : List (Tet K)) : Prop :=
  ∀ E, (∃ t ∈ tets, ∃ q ∈ t.q, e q < E) → (∃ t ∈ tets, ∃ q ∈ t.q, E < e q) → (∀ t ∈ tets, ∀ q ∈ t.q, e q ≠ E) → ∃ t ∈ tets, (∃ q ∈ t.q, e q < E) ∧ ∃ q ∈ t.q, E < e q

/-- A connected mesh: every set of vertices that holds some but not all has a tetrahedron reaching out of it. -/
def Connected {K : Type} (tets : List (Tet K)) : Prop :=
  ∀ S : Nat → Prop, (∃ t ∈ tets, ∃ q ∈ t.q, S q) → (∃ t ∈ tets, ∃ q ∈ t.q, ¬ S q) → ∃ t ∈ tets, (∃ q ∈ t.q, S q) ∧ ∃ q ∈ t.q, ¬ S q

noncomputable section

/-- Points of a tetrahedron in barycentric coordinates. -/
abbrev Pt := Fin 4 → ℝ

/-- Value at a point of the linear function with given values at the corners. -/
def at' (f : Fin 4 → ℝ) (p : Pt) : ℝ := p 0 * f 0 + p 1 * f 1 + p 2 * f 2 + p 3 * f 3

/-- Integral of a linear function over the tetrahedron spanned by four points, the whole tetrahedron having volume one: volume, which is the determinant
of the barycentric coordinates, times the mean of the values. -/
def sub (w : Fin 4 → ℝ) (p q r s : Pt) : ℝ := |Matrix.det !![p 0, p 1, p 2, p 3; q 0, q 1, q 2, q 3; r 0, r 1, r 2, r 3; s 0, s 1, s 2, s 3]| * ((at' w p + at' w q + at' w r + at' w s) / 4)

/-- Corner number `i`. -/
def corner (i : Fin 4) : Pt := fun k => if k = i then 1 else 0

/-- The point on the edge from `i` to `j` where the linear function `e` has the value `E`. -/
def cut (e : Fin 4 → ℝ) (E : ℝ) (i j : Fin 4) : Pt := fun k => if k = i then (e j - E) / (e j - e i) else if k = j then (E - e i) / (e j - e i) else 0

/-- Integral of the linear function `w` over the part of the tetrahedron where `e ≤ E`, for `e 0 ≤ e 1 ≤ e 2 ≤ e 3`: the part is cut into tetrahedra. -/
def below (e w : Fin 4 → ℝ) (E : ℝ) : ℝ :=
  if E ≤ e 0 then 0
  else if E ≤ e 1 then sub w (corner 0) (cut e E 0 1) (cut e E 0 2) (cut e E 0 3)
  else if E ≤ e 2 then sub w (corner 0) (corner 1) (cut e E 0 2) (cut e E 0 3) + sub w (corner 1) (cut e E 0 2) (cut e E 0 3) (cut e E 1 3)
    + sub w (corner 1) (cut e E 0 2) (cut e E 1 2) (cut e E 1 3)
  else if E ≤ e 3 then sub w (corner 0) (corner 1) (corner 2) (corner 3) - sub w (corner 3) (cut e E 0 3) (cut e E 1 3) (cut e E 2 3)
  else sub w (corner 0) (corner 1) (corner 2) (corner 3)

/-- Density at `E` of a set of cubic pieces. -/
def density (m : List ((ℝ × ℝ) × Bez ℝ)) (E : ℝ) : ℝ :=
  (m.map fun p => if p.1.1 < E ∧ E < p.1.2 then p.2.value ((E - p.1.1) / (p.1.2 - p.1.1)) else 0).sum

end

end Jdftx.Tetra

namespace Jdftx.Tetra

/-- Two eigenvalues belong together if they are joined by steps of at most `Etol` between eigenvalues. -/
def Linked {K : Type} [Field K] [LinearOrder K] (eigs : List K) (Etol : K) : Nat → Nat → Prop :=
  Relation.ReflTransGen fun i j => ∃ a b, eigs[i]? = some a ∧ eigs[j]? = some b ∧ |a - b| ≤ Etol

/-- Vertices of the unit cube, numbered as in the code: first coordinate slowest. -/
def vert (j : Nat) : Fin 3 → ℝ := ![(j / 4 % 2 : Nat), (j / 2 % 2 : Nat), (j % 2 : Nat)]

/-- `p` is the combination of the four vertices with weights `a`, `b`, `c`, `d`. -/
def Combination (t : Nat × Nat × Nat × Nat) (p : Fin 3 → ℝ) (a b c d : ℝ) : Prop :=
  a + b + c + d = 1 ∧ ∀ i, p i = a * vert t.1 i + b * vert t.2.1 i + c * vert t.2.2.1 i + d * vert t.2.2.2 i

end Jdftx.Tetra
