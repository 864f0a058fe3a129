import Verif.Model.FluidMix
import Verif.Spec.FluidEx

/-!
# Specification for C95: energy and gradient of a mixture of classical fluids
-/
namespace Jdftx.Fluid
open Box ExCorr Cavity Filter Topology
noncomputable section

/-- A contribution reports the derivative of its energy at densities `N` and polarizations `P`: along every curve through them, the energy changes at the rate given by what it adds to the gradients. -/
def TermGrad (g : Grid) {C : Nat} {ns : Fin C → Nat} (t : Term ns) (N : DN ns) (P : DP C) : Prop :=
  ∀ (M : ℝ → DN ns) (dN : DN ns) (R : ℝ → DP C) (dP : DP C) (u : ℝ), M u = N → R u = P →
    (∀ c s, ADeriv g (fun v => M v c s) (dN c s) u) → (∀ c k, HasDerivAt (fun v => R v c k) (dP c k) u) →
    HasDerivO (fun v => t.E (M v) (R v)) (g.dV * ∑ c, ∑ s, innerG g (t.GN N P c s) (dN c s) + g.detR * ∑ c, ∑ k, t.GP N P c k * dP c k) u

/-- An ideal gas reports derivatives consistently at the state `psi` and scale factor `ν`. Along every curve of states and scale factors through them, suppose that some other energy has the gradients `A` with respect to the (scaled)
site densities and `B` with respect to the (scaled) polarization, and changes further at `a` times the rate at which the number of molecules would change without scaling. The rate of change of that energy plus the energy of the gas (with the
correction for the scale factor) must be what results from the gradients which `convertGradients` returns, and from the derivative with respect to the scale factor. -/
def GasGrad (g : Grid) (T : ℝ) (mult0 : Nat) {n : Nat} (gas : Gas n) (psi : Fin gas.nI → Field) (ν : ℝ) : Prop :=
  ∀ (Ψ : ℝ → Fin gas.nI → Field) (dpsi : Fin gas.nI → Field) (s : ℝ → ℝ) (s' u : ℝ), Ψ u = psi → s u = ν →
    (∀ k, ∀ j < nr g.S, HasDerivAt (fun v => Ψ v k j) (dpsi k j) u) → HasDerivAt s s' u →
    ∃ (dN : Fin (n + 1) → Field) (dP : Fin 3 → ℝ) (dE : ℝ),
      (∀ i, ∀ j < nr g.S, HasDerivAt (fun v => gas.N (Ψ v) i j) (dN i j) u) ∧
      (∀ k, HasDerivAt (fun v => gas.P0 (Ψ v) k) (dP k) u) ∧
      (∀ X : ℝ → Fin (n + 1) → Field, (∀ᶠ v in 𝓝 u, ∀ i, ∀ j < nr g.S, X v i j = s v * gas.N (Ψ v) i j) →
        HasDerivAt (fun v => gas.energy (Ψ v) (X v) (s v) + integ g (X v 0) * (T * Real.log (s v) / mult0)) dE u) ∧
      ∀ (X : Fin (n + 1) → Field) (A : Fin (n + 1) → Field) (B : Fin 3 → ℝ) (a : ℝ), (∀ i, ∀ j < nr g.S, X i j = ν * gas.N psi i j) →
        g.dV * (∑ i, dotF g (A i) fun j => s' * gas.N psi i j + ν * dN i j) + g.detR * (∑ k, B k * (s' * gas.P0 psi k + ν * dP k)) + dE + a * (g.dV * ∑ j ∈ Finset.range (nr g.S), ν * dN 0 j)
        = g.dV * (∑ k, dotF g (gas.conv psi X (fun i j => A i j + gas.addN psi i j + (if i = 0 then T * Real.log ν / mult0 else 0) + (if i = 0 then a else 0)) B ν k) (dpsi k))
          + s' * (gas.addScale psi + g.dV * (∑ i, dotF g (gas.N psi i) fun j => A i j + gas.addN psi i j + (if i = 0 then T * Real.log ν / mult0 else 0)) + g.detR * ∑ k, gas.P0 psi k * B k)

/-- The charge of the cell at potential `b`: the charge outside the fluid, the charge of the components of fixed number, and the charge of the free components, whose numbers follow a Boltzmann factor. -/
def MixF.total {C : Nat} (m : MixF C) (N0 : Fin C → ℝ) (b : ℝ) : ℝ := open Classical in
  m.Qext + (∑ c, if 0 < (m.comp c).Nnorm then (m.comp c).Nnorm * (m.comp c).Q else 0)
    + (∑ c, if 0 < (m.comp c).Nnorm then 0 else N0 c * Real.exp (-((m.comp c).Q * b)) * (m.comp c).Q)

/-- The potential `b` makes the cell neutral. -/
def MixF.Neutral {C : Nat} (m : MixF C) (N0 : Fin C → ℝ) (b : ℝ) : Prop := m.total N0 b = 0

/-- Newton's method for a zero of a function, from 0. -/
def newtonSeq (f : ℝ → ℝ) : Nat → ℝ
  | 0 => 0
  | k + 1 => newtonSeq f k - f (newtonSeq f k) / deriv f (newtonSeq f k)

/-- The number of molecules of a component in the cell, from the density of the first site, at potential `b`. -/
def MixF.number (g : Grid) {C : Nat} (m : MixF C) (psi : m.State) (b : ℝ) (c : Fin C) : ℝ :=
  integ g (m.N g psi (m.nscale (m.count g psi) b) c 0) / (m.comp c).mult0

/-- The charge in the cell. -/
def MixF.cellCharge (g : Grid) {C : Nat} (m : MixF C) (psi : m.State) (b : ℝ) : ℝ := m.Qext + ∑ c, (m.comp c).Q * m.number g psi b c

/-- A monoatomic ion. -/
structure Ion where
  mu : ℝ
  Nbulk : ℝ
  V : Field
  Nnorm : ℝ
  Q : ℝ

/-- A mixture of monoatomic ions. -/
def ionMix (g : Grid) {C : Nat} (ion : Fin C → Ion) (T p Qext Qtol : ℝ) (terms : List (Term fun _ : Fin C => 0 + 1)) : MixF C where
  ns := fun _ => 0
  comp := fun c => ⟨gasMono g T (ion c).mu (ion c).Nbulk (ion c).V, 1, (ion c).Nnorm, (ion c).Q⟩
  T := T
  p := p
  Qext := Qext
  Qtol := Qtol
  terms := terms

/-- The potential that makes the cell neutral (0 if there is none). -/
def MixF.neutralV {C : Nat} (m : MixF C) (N0 : Fin C → ℝ) : ℝ := open Classical in if h : ∃ b, m.Neutral N0 b then h.choose else 0

/-- The energy of a state, if the potential that makes the cell neutral is found exactly. -/
def MixF.exactEnergy (g : Grid) {C : Nat} (m : MixF C) (psi : m.State) : Option ℝ :=
  m.energy g psi (m.nscale (m.count g psi) (m.neutralV (m.count g psi)))

/-- The gradient the code computes, for the same potential and the derivative `Qprime` there. -/
def MixF.exactGrad (g : Grid) {C : Nat} (m : MixF C) (psi : m.State) (c : Fin C) : Fin (m.comp c).gas.nI → Field :=
  let N0 := m.count g psi
  m.grad g psi (m.nscale N0 (m.neutralV N0)) (m.jac N0 (m.neutralV N0) (m.Qprime N0 (m.neutralV N0))) c

end
end Jdftx.Fluid
