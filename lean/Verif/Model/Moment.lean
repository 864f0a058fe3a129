import Verif.Model.WignerSeitz
/-!
# Model of the file with dipole moments (jdftx/electronic/DumpExcitationsMoments.cpp:405-452)

`red` is `ws.reduce` (modelled in `WignerSeitz.lean`). Real arithmetic is exact; the digits of the file are not modelled.
-/
namespace Jdftx.Moment
open Jdftx.M3

/-- DumpExcitationsMoments.cpp:417-419: the order of the three loops. -/
def cells (S : Fin 3 → ℕ) : List (V3 Int) :=
  (List.range (S 0)).flatMap fun (i : ℕ) => (List.range (S 1)).flatMap fun (j : ℕ) =>
    (List.range (S 2)).map fun (k : ℕ) => vec (i : Int) (j : Int) (k : Int)

/-- DumpExcitationsMoments.cpp:420, 429: `x0 + ws.reduce(p - x0)`. -/
def wrap (red : V3 ℝ → V3 ℝ) (x0 p : V3 ℝ) : V3 ℝ := fun d => x0 d + red (fun d => p d - x0 d) d

/-- `invS*iv` (DumpExcitationsMoments.cpp:415, 420), with the inverse of the diagonal matrix taken per element. -/
noncomputable def meshPos (S : Fin 3 → ℕ) (iv : V3 Int) : V3 ℝ := fun d => (iv d : ℝ) / (S d : ℝ)

/-- DumpExcitationsMoments.cpp:412-423: electronic moment in lattice coordinates. The state is the sum and the offset of
`nData`. -/
noncomputable def elecMoment (red : V3 ℝ → V3 ℝ) (x0 : V3 ℝ) (S : Fin 3 → ℕ) (nData : ℕ → ℝ) (dV : ℝ) : V3 ℝ :=
  let r := (cells S).foldl (fun (a : V3 ℝ × ℕ) iv =>
    ((fun d => a.1 d + wrap red x0 (meshPos S iv) d * nData a.2), a.2 + 1)) ((fun _ => 0), 0)
  fun d => r.1 d * dV

/-- DumpExcitationsMoments.cpp:426-431: ionic moment, for species with charge and positions. -/
def ionMoment (red : V3 ℝ → V3 ℝ) (x0 : V3 ℝ) (species : List (ℝ × List (V3 ℝ))) : V3 ℝ :=
  species.foldl (fun m sp => sp.2.foldl (fun m pos => fun d => m d - sp.1 * wrap red x0 pos d) m) fun _ => 0

/-- DumpExcitationsMoments.cpp:434-438. -/
def dropPeriodic (isTruncated : Fin 3 → Bool) (m : V3 ℝ) : V3 ℝ := fun d => if !isTruncated d then 0 else m d

/-- The three lines of the file (DumpExcitationsMoments.cpp:449-451). -/
structure Lines where
  electronic : V3 ℝ
  ionic : V3 ℝ
  total : V3 ℝ

/-- DumpExcitationsMoments.cpp:405-452 `dumpMoment`. -/
noncomputable def dumpMoment (red : V3 ℝ → V3 ℝ) (R : Mat ℝ) (x0 : V3 ℝ) (S : Fin 3 → ℕ) (nData : ℕ → ℝ) (dV : ℝ)
    (species : List (ℝ × List (V3 ℝ))) (isTruncated : Fin 3 → Bool) : Lines :=
  let el := mulMV R (dropPeriodic isTruncated (elecMoment red x0 S nData dV))
  let io := mulMV R (dropPeriodic isTruncated (ionMoment red x0 species))
  ⟨el, io, fun d => el d + io d⟩

end Jdftx.Moment
