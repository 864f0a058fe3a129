import Verif.Model.ExCorr
import Mathlib.Analysis.Calculus.Deriv.Basic

/-!
# Specification for C74
-/
namespace Jdftx.ExCorr
noncomputable section

/-- Products of gradients: the squares of the gradients of each spin density and of the total density are not negative. -/
def Pt.Possible {k : Nat} (x : Pt k) : Prop :=
  0 ≤ x.sigma 0 ∧ 0 ≤ x.sigma 2 ∧ 0 ≤ x.sigma 0 + 2 * x.sigma 1 + x.sigma 2

/-- The derivatives a functional reports at `x` are those of its energy: along every curve of arguments through `x` with
possible gradients the chain rule holds with them. -/
def Fn.Consistent {k : Nat} (f : Fn k) (x : Pt k) : Prop :=
  ∀ (c : ℝ → Pt k) (c' : Pt k), c 0 = x → (∀ t, (c t).Possible) →
    (∀ s, HasDerivAt (fun t => (c t).n s) (c'.n s) 0) → (∀ q, HasDerivAt (fun t => (c t).sigma q) (c'.sigma q) 0) →
    (∀ s, HasDerivAt (fun t => (c t).lap s) (c'.lap s) 0) → (∀ s, HasDerivAt (fun t => (c t).tau s) (c'.tau s) 0) →
    HasDerivAt (fun t => f.e (c t))
      (∑ s, (f.grad x).n s * c'.n s + ∑ q, (f.grad x).sigma q * c'.sigma q
        + ∑ s, (f.grad x).lap s * c'.lap s + ∑ s, (f.grad x).tau s * c'.tau s) 0

/-- Densities moved by `t` along the direction `d`. -/
def moved {K : Nat} (n d : Fin K → Field) (t : ℝ) : Fin K → Field := fun s j => n s j + t * d s j

/-- The functional does not depend on density gradients. -/
def Fn.Local {k : Nat} (f : Fn k) : Prop := ∀ x q, (f.grad x).sigma q = 0

end
end Jdftx.ExCorr
