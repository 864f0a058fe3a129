import Verif.Model.ExactX

/-!
# Specification for C97: exact exchange
-/
namespace Jdftx.EXX
open M3
noncomputable section

/-- A symmetry of the interaction: a unimodular rotation that leaves the kernel unchanged, possibly with inversion of k. -/
structure Symmetry (K : V3 ℝ → ℝ) (t : KT) : Prop where
  det : M3.det t.op.rot = 1 ∨ M3.det t.op.rot = -1
  sign : t.invert = 1 ∨ t.invert = -1
  kernel : ∀ v, K (t.op.applyRecip v) = K v

/-- The kernel is that of an interaction that does not depend on direction: the same for opposite wave vectors. -/
def EvenKernel (K : V3 ℝ → ℝ) : Prop := ∀ v : V3 ℝ, K (fun i => -v i) = K v

/-- Two translations differ by a lattice vector. -/
def SameMod (a b : V3 ℝ) : Prop := ∃ m : V3 Int, ∀ i, a i = b i + m i

/-- The transforms of the mesh: one is chosen for each point of the mesh, a symmetry of the interaction; those that the program takes as the same differ only by lattice vectors. -/
structure MeshOK (K : V3 ℝ → ℝ) (thr : ℝ) (m : Kmesh) (choice : Nat → Nat) : Prop where
  sym : ∀ ik < m.n, Symmetry K (m.pick choice ik)
  sharp : ∀ ik < m.n, ∀ jk < m.n, ∀ ik' < m.n, ∀ jk' < m.n,
    ((m.pick choice ik).net (m.pick choice jk)).same thr ((m.pick choice ik').net (m.pick choice jk')) →
    SameMod ((m.pick choice ik).net (m.pick choice jk)).op.a ((m.pick choice ik').net (m.pick choice jk')).op.a

/-- The orbital at a point of the complete mesh. -/
def meshOrb (S : Sys) (m : Kmesh) (choice : Nat → Nat) (C : Wfns) (s ik b : Nat) : Orb :=
  (S.orb C s (m.iReduced ik) b).act (m.pick choice ik)

/-- The exchange energy of all pairs of orbitals on the complete mesh, without use of symmetries. -/
def fullEnergy (S : Sys) (m : Kmesh) (choice : Nat → Nat) (C : Wfns) (F : Fill) : ℝ :=
  ∑ s ∈ Finset.range S.nSpins, ∑ ik ∈ Finset.range m.n, ∑ jk ∈ Finset.range m.n, ∑ b ∈ Finset.range S.nB, ∑ b' ∈ Finset.range S.nB,
    -(S.aXX / 2) * S.spinWeight / (m.n : ℝ) ^ 2 * F s (m.iReduced ik) b * F s (m.iReduced jk) b' *
      ∑ᶠ G : V3 Int, S.K (fun i => (meshOrb S m choice C s jk b').k i - (meshOrb S m choice C s ik b).k i + G i) *
        ‖pairDensity (meshOrb S m choice C s ik b) (meshOrb S m choice C s jk b') G‖ ^ 2

/-- A chunk contains a band of a k-point. -/
def Chunk.has (c : Chunk) (q b : Nat) : Prop := c.iq = q ∧ c.bStart ≤ b ∧ b < c.bStop

instance (c : Chunk) (q b : Nat) : Decidable (c.has q b) := inferInstanceAs (Decidable (c.iq = q ∧ c.bStart ≤ b ∧ b < c.bStop))

end
end Jdftx.EXX
