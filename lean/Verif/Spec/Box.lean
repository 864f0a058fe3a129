import Verif.Model.Box

/-!
# Specification for C19-C23: valid grid coordinates
-/
namespace Jdftx.Box

/-- Every direction has at least one sample. -/
def Size.Pos (S : Size) : Prop := 0 < S.s0 ∧ 0 < S.s1 ∧ 0 < S.s2

/-- Coordinates of a real-space grid point. -/
def ValidR (S : Size) (v : IV) : Prop := (0 ≤ v.x ∧ v.x < S.s0) ∧ (0 ≤ v.y ∧ v.y < S.s1) ∧ (0 ≤ v.z ∧ v.z < S.s2)

/-- Centred coordinate: `-s/2 < g ≤ s/2`. -/
def Centred (s : Nat) (g : Int) : Prop := -(s : Int) < 2 * g ∧ 2 * g ≤ s

/-- Coordinates of a point of the full reciprocal grid. -/
def ValidG (S : Size) (v : IV) : Prop := Centred S.s0 v.x ∧ Centred S.s1 v.y ∧ Centred S.s2 v.z

/-- Coordinates of a point of the half reciprocal grid: last coordinate not negative. -/
def ValidH (S : Size) (v : IV) : Prop := ValidG S v ∧ 0 ≤ v.z

end Jdftx.Box
