import Mathlib.Algebra.BigOperators.Group.Finset.Basic
/-!
# Specification: what a loop `for i<N: y[tgt i] += inc i` is meant to compute
-/
namespace Jdftx.Spec
open Finset

/-- Every target element receives the sum of all increments addressed to it. -/
def scatterSum {K : Type} [AddCommMonoid K] (tgt : Nat → Nat) (inc y0 : Nat → K) (N : Nat) (j : Nat) : K :=
  y0 j + ∑ i ∈ range N, if tgt i = j then inc i else 0

end Jdftx.Spec
