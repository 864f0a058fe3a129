/-!
# Specification vocabulary for index ranges

Independent of the code: what it means to hand out the indices `0 .. n-1`.
-/
namespace Jdftx.Spec

/-- The indices `lo, lo+1, ..., hi-1` in increasing order (empty if `hi ≤ lo`). -/
def interval (lo hi : Nat) : List Nat := List.range' lo (hi - lo)

/-- A list of half-open ranges hands out exactly the indices `0 .. n-1`: reading the ranges one after the
other gives `0, 1, ..., n-1`, each once and in order (hence no gap, no overlap, nothing outside). -/
def ExactCover (ranges : List (Nat × Nat)) (n : Nat) : Prop :=
  ranges.flatMap (fun r => interval r.1 r.2) = List.range n

/-- Range lengths differ by at most one. -/
def Balanced (ranges : List (Nat × Nat)) : Prop :=
  ∀ r ∈ ranges, ∀ s ∈ ranges, r.2 - r.1 ≤ (s.2 - s.1) + 1

end Jdftx.Spec
