import Verif.Model.Mat3
import Verif.Model.Outcome
import Mathlib.Analysis.Real.Sqrt
/-!
# Model of charge, dipole and bonds of a fluid molecule (jdftx/fluid/Molecule.cpp)

Real arithmetic is exact. Kernels are modelled by their value at zero wavevector, which for a kernel that is not set is zero
(RadialFunction.h:63-67 with `nCoeff` zero); that a kernel made from samples has the first sample as this value is not
modelled. A map from numbers to counts is modelled by the list of keys whose count was increased.
-/
namespace Jdftx.Mole
open Jdftx.M3
noncomputable section
open Classical

/-- `Molecule::Site`: positions, hard-sphere radius, `chargeKernel(0)`, `elecKernel(0)`. -/
structure Site where
  positions : List (V3 ℝ)
  Rhs : ℝ
  charge : ℝ
  elec : ℝ

/-- Molecule.cpp:304-311 `getCharge`. -/
def getCharge (sites : List Site) : ℝ :=
  let Q : ℝ := sites.foldl (fun (Q : ℝ) s => Q + s.charge * (s.positions.length : ℝ)) 0
  if |Q| < 1 / 10 ^ 12 then 0 else Q

/-- Molecule.cpp:322-326: the number of the first site with charge; reading past the end is undefined behaviour. -/
def chargedSite : List Site → Res ℕ
  | [] => .error .ub
  | s :: l => if s.charge = 0 then (chargedSite l).map (· + 1) else .ok 0

/-- Molecule.cpp:337, 339: both kernels of a site are changed. -/
def adjust (Q : ℝ) (s : Site) : Site :=
  { s with charge := s.charge - Q / s.positions.length, elec := s.elec - Q / s.positions.length }

/-- Molecule.cpp:315-345 `checkCharge`: the value returned and the sites. If the site has no positions the quotient in line
337 divides by zero and the kernel is not a finite number: this is modelled as an outcome `ub` of its own. -/
def checkCharge (sites : List Site) : Res (ℝ × List Site) :=
  let Q := getCharge sites
  if Q = 0 then .ok (0, sites)
  else if |Q| < 1 / 10 ^ 2 then
    match chargedSite sites with
    | .error e => .error e
    | .ok c =>
      if (sites[c]?.map fun s => s.positions.length) = some 0 then .error .ub
      else .ok (0, sites.modify c (adjust Q))
  else .ok (Q, sites)

/-- Length of a Cartesian vector. -/
def length (v : V3 ℝ) : ℝ := Real.sqrt (dot v v)

/-- Molecule.cpp:348-356 `getDipole`. -/
def getDipole (sites : List Site) : V3 ℝ :=
  let P : V3 ℝ := sites.foldl (fun P s => s.positions.foldl (fun (P : V3 ℝ) r => fun d => P d + s.charge * r d) P) fun _ => 0
  if length P < 1 / 10 ^ 12 then fun _ => 0 else P

/-- Molecule.cpp:382. -/
def touches (R1 R2 : ℝ) (p1 p2 : V3 ℝ) : Prop :=
  |R1 + R2 - length (fun d => p1 d - p2 d)| < 1 / 10 ^ 6 * (R1 + R2)

/-- Molecule.cpp:376-387: the keys whose count is increased, in order. -/
def bondVisits (sites : List Site) : List ℝ :=
  sites.flatMap fun s1 => if s1.Rhs = 0 then [] else s1.positions.flatMap fun p1 =>
    sites.flatMap fun s2 => if s2.Rhs = 0 then [] else s2.positions.flatMap fun p2 =>
      if touches s1.Rhs s2.Rhs p1 p2 then [s1.Rhs * s2.Rhs / (s1.Rhs + s2.Rhs)] else []

/-- Molecule.cpp:374-394 `getBonds`: the count of each key, with the assertion. -/
def getBonds (sites : List Site) : Res (ℝ → ℕ) :=
  if ∀ key ∈ bondVisits sites, (bondVisits sites).count key % 2 = 0 then
    .ok fun key => (bondVisits sites).count key / 2
  else .error .die

end

end Jdftx.Mole
