/-!
# Specification vocabulary for memory blocks `(address, size)`
-/
namespace Jdftx.Spec

/-- Two blocks do not share a byte (and have different addresses even if one of them is empty). -/
def BlocksDisjoint (a b : Nat × Nat) : Prop :=
  a.1 ≠ b.1 ∧ (a.1 + a.2 ≤ b.1 ∨ b.1 + b.2 ≤ a.1)

/-- The only assumption about the system allocator: what it returns does not overlap the blocks it has
handed out and not yet received back (`live`). It may fail (`none`) whenever it likes, and may depend on the
number `k` of previous calls, i.e. behave differently each time. -/
def SystemAllocator (sys : (live : List (Nat × Nat)) → (size k : Nat) → Option Nat) : Prop :=
  ∀ live size k a, sys live size k = some a → ∀ b ∈ live, BlocksDisjoint (a, size) b

/-- Total size of blocks. -/
def totalSize (l : List (Nat × Nat)) : Nat := (l.map (·.2)).sum

end Jdftx.Spec
