import Verif.Model.Mat3
import Verif.Model.Basis
import Verif.Model.CellMap
import Verif.Model.Outcome
import Mathlib.Data.Complex.Basic

/-!
# Model of the finite-difference formula of Wannier calculations (jdftx/wannier/WannierMinimizerFD.cpp:22-160)

Exact real arithmetic. The least-squares solution of the equations (singular value decomposition, lines 63-69) is a parameter, which need not solve anything: the code checks it by
substitution. Edges on the mesh (lines 162-215) are not modelled.
-/
namespace Jdftx.WanFD
noncomputable section
open M3 Finset

/-- Solver of the equations: from left-hand sides, numbers of equations and of shells and right-hand sides, one complex weight for each shell. -/
abbrev Solver := (ℕ → ℕ → ℝ) → ℕ → ℕ → (ℕ → ℝ) → ℕ → ℂ

/-- WannierMinimizerFD.cpp:38-59: the equations in their order, as pairs of directions: diagonal ones and then the others. -/
def eqns (mask : Fin 3 → Bool) : List (Fin 3 × Fin 3) :=
  (([0, 1, 2] : List (Fin 3)).filter mask).map (fun i => (i, i)) ++
    ([0, 1, 2] : List (Fin 3)).flatMap fun i => if mask i then (([0, 1, 2] : List (Fin 3)).filter fun j => decide (j < i) && mask j).map (fun j => (i, j)) else []

open Classical in
/-- WannierMinimizerFD.cpp:29-33: number of the shell of each vector, after one of length `prev` in shell `s`. -/
def shellsFrom (tol : ℝ) : ℝ → ℕ → List (V3 ℝ) → List ℕ
  | _, _, [] => []
  | prev, s, v :: l =>
    let s' := if Basis.length v > prev + tol then s + 1 else s
    s' :: shellsFrom tol (Basis.length v) s' l

/-- WannierMinimizerFD.cpp:28-34: number of the shell of each vector. -/
def shells (tol : ℝ) : List (V3 ℝ) → List ℕ
  | [] => []
  | v :: l => 0 :: shellsFrom tol (Basis.length v) 0 l

/-- WannierMinimizerFD.cpp:34 `nShells`. -/
def nShells (tol : ℝ) (b : List (V3 ℝ)) : ℕ := (shells tol b).getLastD 0 + 1

/-- WannierMinimizerFD.cpp:44-57 `Lhs`. -/
def lhs (tol : ℝ) (b : List (V3 ℝ)) (mask : Fin 3 → Bool) (e s : ℕ) : ℝ :=
  ((b.zip (shells tol b)).map fun p => if p.2 = s then p.1 ((eqns mask).getD e (0, 0)).1 * p.1 ((eqns mask).getD e (0, 0)).2 else 0).sum

/-- WannierMinimizerFD.cpp:58-62 `rhs`. -/
def rhs (mask : Fin 3 → Bool) (e : ℕ) : ℝ := if e < (([0, 1, 2] : List (Fin 3)).filter mask).length then 1 else 0

/-- WannierMinimizerFD.cpp:63-69 `wShells`. -/
def wShells (tol : ℝ) (solve : Solver) (b : List (V3 ℝ)) (mask : Fin 3 → Bool) : ℕ → ℂ :=
  solve (lhs tol b mask) (eqns mask).length (nShells tol b) (rhs mask)

/-- WannierMinimizerFD.cpp:70: residual of the equations. -/
def residual (tol : ℝ) (solve : Solver) (b : List (V3 ℝ)) (mask : Fin 3 → Bool) : ℝ :=
  Real.sqrt (∑ e ∈ range (eqns mask).length,
    Complex.normSq ((∑ s ∈ range (nShells tol b), (lhs tol b mask e s : ℂ) * wShells tol solve b mask s) - (rhs mask e : ℂ)))

open Classical in
/-- WannierMinimizerFD.cpp:26-78 `getFDformula` for given neighbours (lines 26-27); `none` is the empty set of weights. The assertion on the number of equations (line 42) cannot fail,
because without directions there are no neighbours. -/
def weights (tol : ℝ) (solve : Solver) (b : List (V3 ℝ)) (mask : Fin 3 → Bool) : Option (List ℝ) :=
  if residual tol solve b mask > tol then none else some ((shells tol b).map fun s => (wShells tol solve b mask s).re)

/-- `inv` of a matrix3. -/
def inv3 (m : M3.Mat ℝ) : M3.Mat ℝ := M3.smul (1 / M3.det m) (M3.adjugate m)

/-- WannierMinimizerFD.cpp:85-87 `dkMax`. -/
def dkMax (K : M3.Mat ℝ) (mask : Fin 3 → Bool) : ℝ :=
  ([0, 1, 2] : List (Fin 3)).foldl (fun m i => if mask i then max m (Basis.length (M3.column K i)) else m) 0

/-- WannierMinimizerFD.cpp:88-92 `ikBound`. -/
def ikBound (K : M3.Mat ℝ) (mask : Fin 3 → Bool) (i : Fin 3) : Int :=
  if mask i then max 2 (1 + ⌈dkMax K mask * Basis.length (M3.column (M3.transpose (inv3 K)) i)⌉) else 0

/-- `for(i=-n; i<=+n; i++)`. -/
def sym (n : Int) : List Int := (List.range (2 * n + 1).toNat).map fun (i : ℕ) => (i : Int) - n

/-- WannierMinimizerFD.cpp:95-99: offsets within the box other than zero, in the order of the loops. -/
def offsets (K : M3.Mat ℝ) (mask : Fin 3 → Bool) : List (V3 Int) :=
  ((sym (ikBound K mask 0)).flatMap fun (x : Int) => (sym (ikBound K mask 1)).flatMap fun (y : Int) => (sym (ikBound K mask 2)).map fun (z : Int) => (vec x y z : V3 Int)).filter
    fun v => v 0 * v 0 + v 1 * v 1 + v 2 * v 2 ≠ 0

open Classical in
/-- `std::multimap::insert`: after the entries of the same key. -/
def insertM (k : ℝ) (v : V3 ℝ) : List (ℝ × V3 ℝ) → List (ℝ × V3 ℝ)
  | [] => [(k, v)]
  | e :: l => if k < e.1 then (k, v) :: e :: l else e :: insertM k v l

/-- WannierMinimizerFD.cpp:94-102 `dkMap`. -/
def dkMap (K : M3.Mat ℝ) (mask : Fin 3 → Bool) : List (ℝ × V3 ℝ) :=
  (offsets K mask).foldl (fun l v => let dk := mulMV K fun i => (v i : ℝ); insertM (CellMap.lenSq dk) dk l) []

open Classical in
/-- WannierMinimizerFD.cpp:106-110: removal of inversion partners of one entry from those behind it. -/
def prune (tol : ℝ) (e : ℝ × V3 ℝ) : List (ℝ × V3 ℝ) → List (ℝ × V3 ℝ)
  | [] => []
  | f :: l => if f.1 < e.1 + tol then (if CellMap.lenSq (f.2 + e.2) < tol ^ 2 then prune tol e l else f :: prune tol e l) else f :: l

theorem prune_length (tol : ℝ) (e : ℝ × V3 ℝ) (l : List (ℝ × V3 ℝ)) : (prune tol e l).length ≤ l.length := by
  induction l with
  | nil => simp [prune]
  | cons f l ih =>
    unfold prune
    split_ifs <;> simp <;> omega

/-- WannierMinimizerFD.cpp:103-111: removal of inversion partners. -/
def dedup (tol : ℝ) : List (ℝ × V3 ℝ) → List (ℝ × V3 ℝ)
  | [] => []
  | e :: l => e :: dedup tol (prune tol e l)
  termination_by l => l.length
  decreasing_by
    have := prune_length tol e l
    simp
    omega

open Classical in
/-- WannierMinimizerFD.cpp:117-124: the entries that follow one at distance `prev` in the same shell, and the others. -/
def takeShell (tol : ℝ) : ℝ → List (ℝ × V3 ℝ) → List (ℝ × V3 ℝ) × List (ℝ × V3 ℝ)
  | _, [] => ([], [])
  | prev, f :: l => if f.1 > prev + tol then ([], f :: l) else ((f :: (takeShell tol f.1 l).1), (takeShell tol f.1 l).2)

theorem takeShell_length (tol : ℝ) (l : List (ℝ × V3 ℝ)) : ∀ prev, (takeShell tol prev l).2.length ≤ l.length := by
  induction l with
  | nil => intro _; simp [takeShell]
  | cons f l ih =>
    intro prev
    unfold takeShell
    split_ifs
    · simp
    · have := ih f.1
      simp
      omega

/-- WannierMinimizerFD.cpp:113-130: shells are added until a formula is found; `b` are the neighbours so far. -/
def search (tol : ℝ) (solve : Solver) (mask : Fin 3 → Bool) (b : List (V3 ℝ)) : List (ℝ × V3 ℝ) → Res (List (V3 ℝ) × List ℝ)
  | [] => .error .die
  | e :: l =>
    match weights tol solve (b ++ (e :: (takeShell tol e.1 l).1).map Prod.snd) mask with
    | some w => .ok (b ++ (e :: (takeShell tol e.1 l).1).map Prod.snd, w)
    | none => search tol solve mask (b ++ (e :: (takeShell tol e.1 l).1).map Prod.snd) (takeShell tol e.1 l).2
  termination_by l => l.length
  decreasing_by
    have := takeShell_length tol l e.1
    simp
    omega

/-- WannierMinimizerFD.cpp:83-131 `getFDformula` for a mesh with basis `K` (lines 80-82). -/
def formula (tol : ℝ) (solve : Solver) (K : M3.Mat ℝ) (mask : Fin 3 → Bool) : Res (List (V3 ℝ) × List ℝ) :=
  search tol solve mask [] (dedup tol (dkMap K mask))

open Classical in
/-- WannierMinimizerFD.cpp:148-153 `mask`. -/
def maskOf (tol : ℝ) (K : M3.Mat ℝ) (i : Fin 3) : Fin 3 → Bool := fun j => decide (|dot (M3.column K i) (M3.column K j)| > tol)

/-- WannierMinimizerFD.cpp:145-159: body of the loop over directions. -/
def dirStep (tol : ℝ) (solve : Solver) (K : M3.Mat ℝ) (st : (Fin 3 → Bool) × List (V3 ℝ) × List ℝ) (i : Fin 3) : Res ((Fin 3 → Bool) × List (V3 ℝ) × List ℝ) :=
  if st.1 i then .ok st
  else do
    let r ← formula tol solve K (maskOf tol K i)
    .ok (fun j => st.1 j || maskOf tol K i j, st.2.1 ++ r.1, st.2.2 ++ r.2)

/-- WannierMinimizerFD.cpp:143-159: the formula, as lists of offsets and of weights. -/
def setup (tol : ℝ) (solve : Solver) (K : M3.Mat ℝ) : Res (List (V3 ℝ) × List ℝ) := do
  let s0 ← dirStep tol solve K (fun _ => false, [], []) 0
  let s1 ← dirStep tol solve K s0 1
  let s2 ← dirStep tol solve K s1 2
  .ok s2.2

end
end Jdftx.WanFD
