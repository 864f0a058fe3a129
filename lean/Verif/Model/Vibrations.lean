import Verif.Model.Outcome
import Verif.Model.Mat3
import Verif.Model.Basis
import Mathlib.Analysis.SpecialFunctions.Log.Basic
import Mathlib.Analysis.SpecialFunctions.Complex.Arg
import Mathlib.Algebra.BigOperators.Fin
import Mathlib.Data.Matrix.Mul
import Mathlib.Data.Matrix.Diagonal

/-!
# Model of the vibrational analysis (jdftx/electronic/Vibrations.cpp) and of `removePhase` (jdftx/core/Operators.cpp:358-388)

Numbers are real, without rounding. Atoms of all species are numbered consecutively in the order of the loops over species and atoms of a species; the maps of atoms under symmetries
stay within a species. Forces and electronic dipole moments come from functions of the displacements of all atoms (that the electrons are converged at each configuration is not modelled).
-/
namespace Jdftx.Vib
noncomputable section
open M3

/-- SpeciesInfo.h `Constraint::type`. -/
inductive CType | none | linear | planar | hyperPlane

/-- SpeciesInfo.h `Constraint`: scale of moves, type, direction. -/
structure Constraint where
  moveScale : ℝ
  type : CType
  d : V3 ℝ

/-- Vibrations.cpp:58-61: the constraint used when constraints are not requested. -/
def nullConstraint : Constraint := ⟨1, .none, fun _ => 0⟩

/-- `v / v.length()`; `none` is a vector of values that are not numbers. -/
def normalized (v : V3 ℝ) : Option (V3 ℝ) := if dot v v = 0 then none else some fun k => v k / Real.sqrt (dot v v)

/-- Vibrations.cpp:93: vector that should not be parallel to the normal. -/
def planarStart (d : V3 ℝ) : V3 ℝ := if |d 0| < |d 1| then vec 1 0 0 else vec 0 0 1

/-- Vibrations.cpp:94: its component perpendicular to the normal. -/
def planarA (d : V3 ℝ) : V3 ℝ := fun k => planarStart d k - d k * (dot d (planarStart d) / dot d d)

/-- Vibrations.cpp:82-107: directions in which an atom can move. The outer `none` is an atom that does not move. -/
def directions (c : Constraint) : Res (Option (List (Option (V3 ℝ)))) :=
  if c.moveScale = 0 then .ok none else match c.type with
  | .none => .ok (some [some (vec 1 0 0), some (vec 0 1 0), some (vec 0 0 1)])
  | .planar => .ok (some [normalized (planarA c.d), normalized (cross c.d (planarA c.d))])
  | .linear => .ok (some [normalized c.d])
  | .hyperPlane => .error .die

/-- Vibrations.cpp:64-70 `Mode`. -/
structure Mode (N : ℕ) where
  atom : Fin N
  n : V3 ℝ
  isPrimary : Bool
  fromTranslation : Bool

/-- Symmetries of the unperturbed system: rotations in lattice coordinates and the maps of atoms (Symmetries.h `getMatrices`, `getAtomMap`), and the lattice vectors. -/
structure Sym (N ns : ℕ) where
  R : Mat ℝ
  irot : Fin ns → Mat Int
  amap : Fin N → Fin ns → Fin N

variable {N ns : ℕ}

/-- Vibrations.cpp:205: Cartesian rotation. -/
def rot (o : Sym N ns) (r : Fin ns) : Mat ℝ := mulMM (mulMM o.R (castMat (o.irot r))) (Basis.inv o.R)

/-- State of the loop over atoms: primary flags, whether an atom for the translations was found, modes. -/
structure LSt (N : ℕ) where
  prim : Fin N → Bool
  found : Bool
  modes : List (Mode N)

/-- Vibrations.cpp:108-132: one atom of the loop; `dirs a` are its directions, `none` for atoms that do not move (`continue` in line 84). The flags are modelled for all species together. -/
def addAtom (o : Sym N ns) (translationSym : Bool) (dirs : Fin N → Option (List (V3 ℝ))) (st : LSt N) (a : Fin N) : LSt N :=
  match dirs a with
  | none => st
  | some l =>
    let fromT := translationSym && !st.found && decide (∀ r, o.amap a r = a)
    let prim := if fromT then Function.update st.prim a false else st.prim
    ⟨(List.finRange ns).foldl (fun p r => Function.update p (o.amap a r) false) prim, st.found || fromT, st.modes ++ l.map fun n => ⟨a, n, prim a, fromT⟩⟩

/-- Vibrations.cpp:70-134: all modes. -/
def modesOf (o : Sym N ns) (translationSym : Bool) (dirs : Fin N → Option (List (V3 ℝ))) : List (Mode N) :=
  ((List.finRange N).foldl (addAtom o translationSym dirs) ⟨fun _ => true, false, []⟩).modes

/-- Vibrations.cpp:150-156: assignments that find the inverse of each symmetry, in their order (the `continue` ends one iteration only). -/
def invWrites (o : Sym N ns) : List (Fin ns × Fin ns) :=
  (List.finRange ns).flatMap fun r1 => ((List.finRange ns).filter fun r2 => decide (r1 ≤ r2)).flatMap fun r2 =>
    if mulMM (o.irot r1) (o.irot r2) = diag 1 1 1 then [(r1, r2), (r2, r1)] else []

/-- Vibrations.cpp:149-156: table of the inverses; it starts with zeros. -/
def rotInv [NeZero ns] (o : Sym N ns) : Fin ns → Fin ns := (invWrites o).foldl (fun t w => Function.update t w.1 w.2) fun _ => 0

/-- Displacements (or gradients) of all atoms, in Cartesian coordinates. -/
abbrev Disp (N : ℕ) := Fin N → V3 ℝ

/-- Displacement of the atoms and the previous direction. -/
structure PSt (N : ℕ) where
  pos : Disp N
  dPrev : Disp N

/-- Vibrations.cpp:183 (also 190, 229): `imin.step(d-dPrev, dr); dPrev=d;`. -/
def stepTo (dr : ℝ) (st : PSt N) (d : Disp N) : PSt N := ⟨fun a => st.pos a + dr • (d a - st.dPrev a), d⟩

/-- Vibrations.cpp:179-180: the displacement of a mode. -/
def single (m : Mode N) : Disp N := fun a => if a = m.atom then m.n else 0

/-- Measured response of the gradients and the dipole moment to a mode. -/
structure Resp (N : ℕ) where
  mode : Mode N
  K : Disp N
  P : V3 ℝ

/-- Vibrations.cpp:178-201: displacements and finite differences for one mode. -/
def measure (grad : Disp N → Disp N) (pel : Disp N → V3 ℝ) (Z : Fin N → ℝ) (dr : ℝ) (central : Bool) (grad0 : Disp N) (pel0 : V3 ℝ) (st : PSt N) (m : Mode N) : PSt N × Resp N :=
  let st1 := stepTo dr st (single m)
  if central then
    let st2 := stepTo dr st1 (fun a => -single m a)
    (st2, ⟨m, fun a => (0.5 / dr) • (grad st1.pos a - grad st2.pos a), (0.5 / dr) • (pel st1.pos - pel st2.pos) - Z m.atom • m.n⟩)
  else (st1, ⟨m, fun a => (1 / dr) • (grad st1.pos a - grad0 a), (1 / dr) • (pel st1.pos - pel0) - Z m.atom • m.n⟩)

/-- Vibrations.cpp:162-201, 228-229: the loop over primary modes and the return to the start. -/
def sweep (grad : Disp N → Disp N) (pel : Disp N → V3 ℝ) (Z : Fin N → ℝ) (dr : ℝ) (central : Bool) (modes : List (Mode N)) : PSt N × List (Resp N) :=
  let st0 : PSt N := ⟨fun _ => 0, fun _ => 0⟩
  let r := (modes.filter (·.isPrimary)).foldl
    (fun (s : PSt N × List (Resp N)) m => let q := measure grad pel Z dr central (grad st0.pos) (pel st0.pos) s.1 m; (q.1, s.2 ++ [q.2])) (st0, [])
  (stepTo dr r.1 fun _ => 0, r.2)

/-- Vibrations.cpp:208, 212: projection weight. -/
def weight (o : Sym N ns) (m m1 : Mode N) (r : Fin ns) : ℝ := dot (mulMV (rot o r) m.n) m1.n

/-- Vibrations.cpp:204-213: the symmetries and measured modes that contribute to mode `m1`. -/
def used (o : Sym N ns) (thr : ℝ) (m m1 : Mode N) (r : Fin ns) : Prop := m1.atom = o.amap m.atom r ∧ ¬|weight o m m1 r| < thr

/-- Vibrations.cpp:214: multiplicity. -/
def multOf (o : Sym N ns) (thr : ℝ) (rs : List (Resp N)) (m1 : Mode N) : ℝ :=
  (rs.map fun q => ∑ r, open Classical in if used o thr q.mode m1 r then weight o q.mode m1 r * weight o q.mode m1 r else 0).sum

/-- Vibrations.cpp:216-220: element of the force matrix before the correction for multiple counting. -/
def rawK [NeZero ns] (o : Sym N ns) (thr : ℝ) (rs : List (Resp N)) (m1 m2 : Mode N) : ℝ :=
  (rs.map fun q => ∑ r, open Classical in
    if used o thr q.mode m1 r then weight o q.mode m1 r * dot m2.n (mulMV (rot o r) (q.K (o.amap m2.atom (rotInv o r)))) else 0).sum

/-- Vibrations.cpp:222-224: element of the dipole derivative before the correction for multiple counting. -/
def rawP (o : Sym N ns) (thr : ℝ) (rs : List (Resp N)) (m1 : Mode N) (k : Fin 3) : ℝ :=
  (rs.map fun q => ∑ r, open Classical in if used o thr q.mode m1 r then weight o q.mode m1 r * mulMV (rot o r) q.P k else 0).sum

/-- Vibrations.cpp:232-233: factors that correct for multiple counting. -/
def invMult (o : Sym N ns) (thr : ℝ) (rs : List (Resp N)) (m1 : Mode N) : ℝ := if m1.fromTranslation then 0 else 1 / multOf o thr rs m1

/-- Vibrations.cpp:241-251: rows of modes set by translation symmetry; `x` has one row. -/
def fillTranslation {m C : ℕ} (modes : Fin m → Mode N) (K : Fin m → Fin C → ℝ) : Fin m → Fin C → ℝ :=
  (List.finRange m).foldl (fun K i1 => if (modes i1).fromTranslation then Function.update K i1 fun c => -∑ i2, dot (modes i1).n (modes i2).n * K i2 c else K) K

/-- Vibrations.cpp:171-255: the force matrix for a list of modes. -/
def forceMatrix [NeZero ns] (o : Sym N ns) (thr : ℝ) (grad : Disp N → Disp N) (pel : Disp N → V3 ℝ) (Z : Fin N → ℝ) (dr : ℝ) (central : Bool) (modes : List (Mode N)) :
    Fin modes.length → Fin modes.length → ℝ :=
  let rs := (sweep grad pel Z dr central modes).2
  let K := fillTranslation (fun i => modes[i]) fun i1 i2 => invMult o thr rs modes[i1] * rawK o thr rs modes[i1] modes[i2]
  fun i1 i2 => (1 / 2) * (K i1 i2 + K i2 i1)

/-- Vibrations.cpp:171-251: derivatives of the dipole moment. -/
def dipoleDerivative [NeZero ns] (o : Sym N ns) (thr : ℝ) (grad : Disp N → Disp N) (pel : Disp N → V3 ℝ) (Z : Fin N → ℝ) (dr : ℝ) (central : Bool) (modes : List (Mode N)) :
    Fin modes.length → Fin 3 → ℝ :=
  let rs := (sweep grad pel Z dr central modes).2
  fillTranslation (fun i => modes[i]) fun i1 k => invMult o thr rs modes[i1] * rawP o thr rs modes[i1] k

/-- Vibrations.cpp:260-267: uniform displacement along direction `k`. -/
def uniformProjector {m : ℕ} (modes : Fin m → Mode N) : Matrix (Fin m) (Fin 3) ℝ := Matrix.of fun i k => (modes i).n k

/-- Vibrations.cpp:287-288: rotation about `axis`, for atoms at `r` relative to the center of mass. -/
def rotationProjector {m : ℕ} (modes : Fin m → Mode N) (axis : V3 ℝ) (r : Disp N) : Fin m → ℝ := fun i => box (modes i).n axis (r (modes i).atom)

/-- Vibrations.cpp:292-300: the force matrix with the columns of `p` projected out. `W` is `invsqrt(dagger(p)*p)`; which matrix that is is left to the theorems. -/
def project {m c : ℕ} (K : Matrix (Fin m) (Fin m) ℝ) (p : Matrix (Fin m) (Fin c) ℝ) (W : Matrix (Fin c) (Fin c) ℝ) : Matrix (Fin m) (Fin m) ℝ :=
  (1 - p * W * (p * W).transpose) * K * (1 - p * W * (p * W).transpose)

/-- Vibrations.cpp:303-308: the matrix whose eigenvalues are the squared frequencies. -/
def omegaSq {m : ℕ} (mass : Fin m → ℝ) (K : Matrix (Fin m) (Fin m) ℝ) : Matrix (Fin m) (Fin m) ℝ :=
  Matrix.diagonal (fun i => 1 / Real.sqrt (mass i)) * K * Matrix.diagonal fun i => 1 / Real.sqrt (mass i)

/-- Vibrations.cpp:315, 318-319: the previous eigenvalue (`none`: `-DBL_MAX`) is below `t`. -/
def below : Option ℝ → ℝ → Prop
  | none, _ => True
  | some p, t => p < t

open Classical in
/-- Vibrations.cpp:313-321: one pass over the eigenvalues (in ascending order) finds the first that is not imaginary and the first that is real. The previous eigenvalue starts as `-DBL_MAX`. -/
def scan (w : ℝ) : List ℝ → Option ℝ → ℕ → ℕ × ℕ → ℕ × ℕ
  | [], _, _, s => s
  | x :: l, prev, i, s => scan w l (some x) (i + 1) (if below prev (-w) ∧ x > -w then i else s.1, if below prev w ∧ x > w then i else s.2)

/-- Vibrations.cpp:312-321: `iZeroStart` and `iRealStart`. -/
def classify (omegaMin : ℝ) (eigs : List ℝ) : ℕ × ℕ := scan (omegaMin * omegaMin) eigs none 0 (0, eigs.length)

/-- Vibrations.cpp:325-332: the indices where the frequency changes. -/
def freqChange (res : ℝ) (eigs : List ℝ) (iz ir : ℕ) : Finset ℕ :=
  ((Finset.range eigs.length).filter fun i => 1 ≤ i ∧ res < abs (Real.sqrt (abs (eigs.getD i 0)) - Real.sqrt (abs (eigs.getD (i - 1) 0)))) ∪ {0, iz, ir, eigs.length}

/-- Vibrations.cpp:354-355: `upper_bound` (the smallest element above `i`) and the element before it. -/
def degeneracy (S : Finset ℕ) (i : ℕ) : WithBot ℕ × WithTop ℕ := ((S.filter (· ≤ i)).max, (S.filter (i < ·)).min)

/-- Vibrations.cpp:377-384: zero-point energy, energy and free energy of the real modes, for the temperature `T`. -/
def ZPE (l : List ℝ) : ℝ := (l.map fun x => 0.5 * Real.sqrt x).sum
/-- Vibrations.cpp:382. -/
def Evib (l : List ℝ) (T : ℝ) : ℝ := (l.map fun x => 0.5 * Real.sqrt x + Real.sqrt x * Real.exp (-Real.sqrt x / T) / (1 - Real.exp (-Real.sqrt x / T))).sum
/-- Vibrations.cpp:383. -/
def Avib (l : List ℝ) (T : ℝ) : ℝ := (l.map fun x => 0.5 * Real.sqrt x + T * Real.log (1 - Real.exp (-Real.sqrt x / T))).sum
/-- Vibrations.cpp:385. -/
def TSvib (l : List ℝ) (T : ℝ) : ℝ := Evib l T - Avib l T

/-- Operators.cpp:365: the threshold 1e-300. -/
def tiny : ℝ := ((10 : ℝ) ^ 300)⁻¹

/-- Operators.cpp:360-376: sums of squares weighted into the mean phase. `none`: no element is above the threshold, and the phase is not a number. -/
def meanPhase (data : List ℂ) : Option ℝ :=
  let big := data.filter fun z => decide (‖z * z‖ > tiny)
  let w0 := (big.map fun z => ‖z * z‖).sum
  let r1 := (big.map fun z => (z * z).re).sum
  let i1 := (big.map fun z => (z * z).im).sum
  if big = [] then none else some (0.5 * Complex.arg ⟨r1 / w0, i1 / w0⟩)

/-- Operators.cpp:377-386: the data with the phase removed; `none`: not numbers. -/
def removePhase (data : List ℂ) : Option (List ℝ) := (meanPhase data).map fun p => data.map fun z => (z * ⟨Real.cos (-p), Real.sin (-p)⟩).re

/-- Vibrations.cpp:364-367: real parts used for the displacements of eigenvector `i` of `m`, with data in columns: the phase is removed from three entries only. Reading after the end of the
data is undefined. -/
def printed (m : ℕ) (data : List ℂ) (i : ℕ) : Res (Option (List ℝ)) :=
  if data.length < i * m + 3 then .error .ub
  else .ok ((removePhase ((data.drop (i * m)).take 3)).map fun p => (p ++ ((data.drop (i * m + 3)).map Complex.re)).take m)

/-- Vibrations.cpp:410: fractional part. -/
def frac (x : ℝ) : ℝ := x - ⌊x⌋

/-- Vibrations.cpp:404-425: point at which to split one lattice direction, for the coordinates `x` of all atoms. With no atoms behaviour is undefined, but lines 138-146 return before that. -/
def splitOf (x : List ℝ) : Res ℝ :=
  let s := (x.map frac).mergeSort (fun a b => decide (a ≤ b))
  match s.getLast? with
  | none => .error .ub
  | some last =>
    let dx := s.zipIdx.map fun p => p.1 - (if p.2 = 0 then last - 1 else s.getD (p.2 - 1) 0)
    let i := (List.range dx.length).foldl (fun b j => if dx.getD b 0 < dx.getD j 0 then j else b) 0
    .ok (frac (s.getD i 0 - 0.5 * dx.getD i 0))

/-- Vibrations.cpp:435-439: a coordinate wrapped at the split. -/
def wrapAt (split x : ℝ) : ℝ := if frac x > split then frac x - 1 else frac x

end
end Jdftx.Vib
