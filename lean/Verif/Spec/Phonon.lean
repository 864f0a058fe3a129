import Verif.Model.Phonon
import Verif.Spec.CellMap
import Mathlib.Analysis.Calculus.Deriv.Basic
import Mathlib.Topology.Algebra.InfiniteSum.Real

/-!
# Specification for C98
-/
namespace Jdftx.Phonon
noncomputable section
open M3 Matrix

/-- The opposite cell. -/
def opp (c : Box.IV) : Box.IV := ⟨-c.x, -c.y, -c.z⟩

/-- The cells differ by a lattice vector of the supercell. -/
def SameCell (S : Box.Size) (c c' : Box.IV) : Prop := (S.s0 : Int) ∣ c.x - c'.x ∧ (S.s1 : Int) ∣ c.y - c'.y ∧ (S.s2 : Int) ∣ c.z - c'.z

variable {n : Nat}

/-- Second derivatives do not depend on the order: the response of mode `j` in cell `c` to mode `i` in cell `0` is the response of mode `i` in cell `-c` to
mode `j` in cell `0`. -/
def Symmetric (S : Box.Size) (F : Grads n) : Prop := ∀ i j c, F i j (getUnit S c).toNat = F j i (getUnit S (opp c)).toNat

/-- A common displacement of all atoms causes no force, and no displacement causes a net force. -/
def SumRule (S : Box.Size) (F : Grads n) : Prop :=
  ∀ (i : Mode n) (d : Fin 3), ∑ R ∈ Finset.range (prodSup S), ∑ b, F i (b, d) R = 0 ∧ ∑ R ∈ Finset.range (prodSup S), ∑ a, F (a, d) i R = 0

/-- Squared distance of two sets of gradients. -/
def distSq (S : Box.Size) (F G : Grads n) : ℝ := ∑ R ∈ Finset.range (prodSup S), ∑ i, ∑ j, (F i j R - G i j R) ^ 2

/-- The map is suitable for a supercell and `n` atoms: its cells are distinct, weights of opposite cells are related by exchange of the atoms, and for each cell of the
supercell the weights of its images sum to one. -/
structure MapOK (S : Box.Size) (n : Nat) (map : List CellMap.Entry) : Prop where
  nodup : (map.map CellMap.Entry.cell).Nodup
  opp : ∀ e ∈ map, ∃ e' ∈ map, e'.cell = Phonon.opp e.cell ∧ ∀ a < n, ∀ b < n, e'.w b a = e.w a b
  one : ∀ u < prodSup S, ∀ a < n, ∀ b < n, ((map.filter fun e => decide (getUnit S e.cell = (u : Int))).map fun e => e.w a b).sum = 1

/-- The same for matrices on the cells of a map. -/
def ForceSymm (F : Forces n) : Prop := ∀ f ∈ F, ∃ f' ∈ F, f'.1.cell = opp f.1.cell ∧ ∀ i j, f'.2 j i = f.2 i j

@[inherit_doc ForceSymm] def ForceSum (F : Forces n) : Prop :=
  ∀ (i : Mode n) (d : Fin 3), (F.map fun f => ∑ b, f.2 i (b, d)).sum = 0 ∧ (F.map fun f => ∑ a, f.2 (a, d) i).sum = 0

/-- Force in direction `j` on all atoms together under a displacement of all atoms in direction `i` by a plane wave of wavevector `q` (Cartesian). -/
def acoustic (g : Geom n) (F : Forces n) (q : V3 ℝ) (i j : Fin 3) : ℂ :=
  (F.map fun f => ∑ a, ∑ b, (f.2 (a, i) (b, j) : ℂ) * cis (∑ l, q l * dr g f.1 a b l)).sum

/-- The acoustic force vanishes to first order in the wavevector (so that sound velocities are finite). -/
def SoundOK (g : Geom n) (F : Forces n) : Prop :=
  ∀ i j, acoustic g F 0 i j = 0 ∧ ∀ q : V3 ℝ, HasDerivAt (fun t : ℝ => acoustic g F (fun l => t * q l) i j) 0 0

/-- The Cartesian component `l` of vectors between atoms depends on the atoms only, not on the cells. -/
def AxisOf (g : Geom n) (F : Forces n) (l : Fin 3) : Prop := ∃ z : Fin n → ℝ, ∀ f ∈ F, ∀ a b, dr g f.1 a b l = z b - z a

/-- Wavevector of a point of the quadrature. -/
def QPt.k (p : QPt) : Fin 3 → ℚ := ![p.x, p.y, p.z]

/-- Energy of a level of a harmonic oscillator of frequency `w`. -/
def level (w : ℝ) (k : Nat) : ℝ := (k + 1 / 2) * w

/-- Partition function of the oscillator. -/
def partition (T w : ℝ) : ℝ := ∑' k, Real.exp (-level w k / T)

/-- Mean energy of the oscillator. -/
def meanEnergy (T w : ℝ) : ℝ := (∑' k, level w k * Real.exp (-level w k / T)) / partition T w

/-- Free energy of the oscillator. -/
def helmholtz (T w : ℝ) : ℝ := -T * Real.log (partition T w)

end
end Jdftx.Phonon
