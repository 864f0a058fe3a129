import Verif.Model.ColBundle
import Mathlib.Algebra.BigOperators.Group.Finset.Basic
/-!
# Specification of wavefunctions by plane waves
-/
namespace Jdftx.Cols

variable {α : Type} [AddCommMonoid α]

/-- The plane waves of a basis are at different positions of the box. -/
def Distinct (nbasis : ℕ) (index : ℕ → ℕ) : Prop := ∀ j < nbasis, ∀ k < nbasis, index j = index k → j = k

/-- `v` is the coefficient, in the numbers `content` for states with `nbasis` plane waves at `index` and `nSpinor`
components, of band `b`, component `s`, at position `g` of the box: that of the plane wave at this position, or zero. The
order is by band, then by component, then by plane wave. -/
def Coefficient (nbasis nSpinor : ℕ) (index : ℕ → ℕ) (content : ℕ → α) (b s g : ℕ) (v : α) : Prop :=
  (∀ j < nbasis, index j = g → v = content ((b * nSpinor + s) * nbasis + j)) ∧
  ((∀ j < nbasis, index j ≠ g) → v = 0)

/-- Number of bands in the file: as in the calculation, unless another one is specified. -/
def bandsInFile {K : Type} (nBands : ℕ) : Option (Conversion K) → ℕ
  | none => nBands
  | some c => if c.nBandsOld = 0 then nBands else c.nBandsOld

/-- Basis of the file: that of the calculation, unless a different cutoff is specified. -/
def basisInFile {K : Type} [DecidableEq K] [Zero K] (own old : BasisOf) : Option (Conversion K) → BasisOf
  | none => own
  | some c => if c.EcutOld = 0 ∨ c.EcutOld = c.Ecut then own else old

end Jdftx.Cols
