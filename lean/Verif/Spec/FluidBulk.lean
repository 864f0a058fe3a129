import Verif.Model.FluidBulk
import Verif.Spec.FluidMix

/-!
# Specification for C96: the bulk fluid at a given pressure
-/
namespace Jdftx.Fluid
open Box ExCorr Cavity Filter Topology
noncomputable section

/-- Between the densities `A` and `L`, the pressure is a continuous function `f` of the density. At `L` (if finite) it goes to infinity; beyond, it is not a number. -/
structure Curve (P : ℝ → Option ℝ) (f : ℝ → ℝ) (A : ℝ) (L : WithTop ℝ) : Prop where
  val : ∀ N : ℝ, A < N → (N : WithTop ℝ) < L → P N = some (f N)
  cont : ∀ N : ℝ, A < N → (N : WithTop ℝ) < L → ContinuousAt f N
  nan : ∀ N : ℝ, A < N → L ≤ (N : WithTop ℝ) → P N = none
  pole : ∀ l : ℝ, L = (l : WithTop ℝ) → Tendsto f (𝓝[<] l) atTop

/-- The pressure of hard spheres of volume `v` according to Carnahan and Starling. -/
def pressureCS (T v N : ℝ) : ℝ := N * T * (1 + v * N + (v * N) ^ 2 - (v * N) ^ 3) / (1 - v * N) ^ 3

/-- A contribution to the uniform fluid reports the derivative of its energy density. -/
def UGrad {C : Nat} {ns : Fin C → Nat} (u : UTerm ns) (n : (c : Fin C) → Fin (ns c) → ℝ) : Prop :=
  ∀ dn : (c : Fin C) → Fin (ns c) → ℝ, HasDerivO (fun t => u.E fun c i => n c i + t * dn c i) (∑ c, ∑ i, u.G n c i * dn c i) 0

/-- Helmholtz free energy of given numbers `M` of molecules in a volume `V`: the excess energy of the uniform fluid, and that of ideal gases. -/
def helmholtz {C : Nat} {ns : Fin C → Nat} (u : UTerm ns) (mult : (c : Fin C) → Fin (ns c) → Nat) (T : ℝ) (M : Fin C → ℝ) (V : ℝ) : Option ℝ :=
  (u.E fun c i => M c / V * mult c i).map fun a => V * a + ∑ c, T * M c * (Real.log (M c / V) - 1)

/-- A contribution agrees, at the densities of a uniform fluid without polarization, with that to the uniform fluid: the energies, and the derivatives with respect to the densities of molecules; its gradient is uniform. -/
def TermBulk (g : Grid) {C : Nat} {ns : Fin C → Nat} (mult : (c : Fin C) → Fin (ns c) → Nat) (Nmol : Fin C → ℝ) (t : Term ns) (u : UTerm ns) : Prop :=
  ∀ N : DN ns, (∀ c s, Uniform g (N c s) (Nmol c * mult c s)) →
    t.E N (fun _ _ => 0) = (u.E fun c s => Nmol c * mult c s).map (g.detR * ·) ∧ (∀ c k, t.GP N (fun _ _ => 0) c k = 0) ∧
    ∃ φ : (c : Fin C) → Fin (ns c) → ℝ, (∀ c s, Uniform g (t.GN N (fun _ _ => 0) c s) (nr g.S * φ c s)) ∧
      ∀ c, ∑ s, φ c s * mult c s = ∑ s, u.G (fun c s => Nmol c * mult c s) c s * mult c s

/-- An ideal gas without external potential, at zero independent fields, is a uniform gas of the bulk density. If the gradients `φ` with respect to site densities (with the contribution of the gas) add up to zero for a molecule,
so are the gradients with respect to the independent fields. -/
structure GasBulk (g : Grid) (T : ℝ) {n : Nat} (mult : Fin (n + 1) → Nat) (mu Nb : ℝ) (gas : Gas n) : Prop where
  dens : ∀ i, ∀ j < nr g.S, gas.N (fun _ _ => 0) i j = Nb * mult i
  pol : ∀ k, gas.P0 (fun _ _ => 0) k = 0
  energy : ∀ X : Fin (n + 1) → Field, (∀ i, ∀ j < nr g.S, X i j = Nb * mult i) → gas.energy (fun _ _ => 0) X 1 = g.detR * (-(T + mu) * Nb)
  addN : ∃ a : Fin (n + 1) → ℝ, (∀ i, ∀ j < nr g.S, gas.addN (fun _ _ => 0) i j = a i) ∧ ∑ i, a i * mult i = -mu
  addScale : gas.addScale (fun _ _ => 0) = 0
  conv : ∀ (X A : Fin (n + 1) → Field) (φ : Fin (n + 1) → ℝ), (∀ i, ∀ j < nr g.S, X i j = Nb * mult i) → (∀ i, ∀ j < nr g.S, A i j = φ i) → ∑ i, φ i * mult i = 0 →
    ∀ k, ∀ j < nr g.S, gas.conv (fun _ _ => 0) X A (fun _ => 0) 1 k j = 0

end
end Jdftx.Fluid
