import Mathlib.Analysis.SpecialFunctions.Pow.Real
import Mathlib.Analysis.SpecialFunctions.Complex.Arg
import Mathlib.LinearAlgebra.Matrix.ConjTranspose
import Mathlib.LinearAlgebra.Matrix.Trace

/-!
# Model of the functions of matrices (jdftx/core/matrixLinalg.cpp:212-315) and some of their uses

Complex matrices over exact arithmetic. The LAPACK routines behind `diagonalize` are parameters; the specification says what is assumed of
them. `none` means that the program exits (`stackTraceExit`); failed assertions on the shapes cannot occur with the types used here.
-/
namespace Jdftx.MatFunc
open Matrix
noncomputable section

/-- Square matrices. -/
abbrev Mat (n : ℕ) := Matrix (Fin n) (Fin n) ℂ

variable {n : ℕ}

/-- `diagonalize` for Hermitian matrices: eigenvectors and eigenvalues. -/
abbrev Diag (n : ℕ) := Mat n → Mat n × (Fin n → ℝ)

/-- `diagonalize` for general matrices: right eigenvectors and eigenvalues (the left ones are asserted to be the same, matrixLinalg.cpp:272). -/
abbrev DiagU (n : ℕ) := Mat n → Mat n × (Fin n → ℂ)

/-- matrixLinalg.cpp:215-228 `MATRIX_FUNC`: line 228. -/
def assemble (V : Mat n) (out : Fin n → ℂ) : Mat n := V * diagonal out * Vᴴ

open Classical in
/-- matrixLinalg.cpp:234-246, body of the loop in `pow` for one eigenvalue: the function value, the eigenvalue handed back and whether it is singular; `handled` means that
the caller passed `isSingular`. -/
def powOne (p : ℝ) (handled : Bool) (e : ℝ) : Option (ℝ × ℝ × Bool) :=
  if p < 0 ∧ e ≤ 0 then (if handled then some (0, e, true) else none)
  else if 0 ≤ p ∧ e < 0 then some (0, 0, false)
  else some (e ^ p, e, false)

/-- Result of `pow`: the matrix, `Aevecs`, `Aeigs` and `isSingular`. -/
structure Pow (n : ℕ) where
  value : Mat n
  evecs : Mat n
  eigs : Fin n → ℝ
  singular : Prop

/-- matrixLinalg.cpp:231-248 `pow`. -/
def pow (d : Diag n) (A : Mat n) (p : ℝ) (handled : Bool) : Option (Pow n) :=
  open Classical in
  if h : ∀ i, (powOne p handled ((d A).2 i)).isSome then
    let r := fun i => (powOne p handled ((d A).2 i)).get (h i)
    some ⟨assemble (d A).1 (fun i => ((r i).1 : ℂ)), (d A).1, fun i => (r i).2.1, ∃ i, (r i).2.2 = true⟩
  else none

/-- matrixLinalg.cpp:251-253 `invsqrt`. -/
def invsqrt (d : Diag n) (A : Mat n) (handled : Bool) : Option (Pow n) := pow d A (-0.5) handled

/-- matrixLinalg.cpp:256-260 `cis`. -/
def cis (d : Diag n) (A : Mat n) : Mat n := assemble (d A).1 (fun i => Complex.exp (Complex.I * (d A).2 i))

/-- matrixLinalg.cpp:265-282 `cisInv`; the assertion that the matrix is unitary (line 268) is a hypothesis of the theorems. -/
def cisInv (d : DiagU n) (A : Mat n) : Mat n := (d A).1 * diagonal (fun i => ((Complex.arg ((d A).2 i) : ℝ) : ℂ)) * ((d A).1)ᴴ

/-- matrixLinalg.cpp:287-300 `MATRIX_FUNC_GRAD`: `code i j` is the factor of the element. -/
def funcGrad (code : Fin n → Fin n → ℂ) (gradIn V : Mat n) : Mat n := V * (Matrix.of fun i j => (Vᴴ * gradIn * V) i j * code i j) * Vᴴ

/-- matrixLinalg.cpp:303-307 `sqrt_grad`. -/
def sqrtGrad (gradIn V : Mat n) (e : Fin n → ℝ) : Mat n := funcGrad (fun i j => 1 / ((Real.sqrt (e i) + Real.sqrt (e j) : ℝ) : ℂ)) gradIn V

open Classical in
/-- matrixLinalg.cpp:309-314 `cis_grad`. -/
def cisGrad (gradIn V : Mat n) (e : Fin n → ℝ) : Mat n :=
  funcGrad (fun i j =>
    let x := e j - e i
    if |x| < 1e-13 then ⟨-0.5 * x, 1⟩ else (Complex.exp (Complex.I * x) - 1) / (x : ℂ)) gradIn V

/-- wannier/WannierMinimizer.cpp:150-152 `fixUnitary`, called with `isSingular`: the matrix and the flag. -/
def fixUnitary {m : ℕ} (d : Diag n) (U : Matrix (Fin m) (Fin n) ℂ) : Option (Matrix (Fin m) (Fin n) ℂ × Prop) :=
  (invsqrt d (Uᴴ * U) true).map fun r => (U * r.value, r.singular)

/-- wannier/WannierMinimizer.cpp:171-180 and WannierMinimizer_init.cpp:525-532: both rotations are made unitary, passing the address of the same flag, which `pow`
clears on entry (matrixLinalg.cpp:232). `none` stands for the error reported when the flag is set, otherwise the new rotations and their product. -/
def fixBoth {m : ℕ} (d : Diag n) (U1 : Matrix (Fin m) (Fin n) ℂ) (U2 : Mat n) : Option (Matrix (Fin m) (Fin n) ℂ × Mat n × Matrix (Fin m) (Fin n) ℂ) :=
  open Classical in do
  let r1 ← fixUnitary d U1
  let r2 ← fixUnitary d U2
  if r2.2 then none else some (r1.1, r2.1, r1.1 * r2.1)

/-- electronic/ExactExchange.cpp:138-140 in `prepareHamiltonian`: the projectors of the compressed exchange operator at one state, from the orbitals `C` and minus the exchange
operator applied to them `W`. -/
def ace {m : ℕ} (d : Diag n) (C W : Matrix (Fin m) (Fin n) ℂ) : Option (Matrix (Fin m) (Fin n) ℂ) := (invsqrt d (Cᴴ * W) true).map fun r => W * r.value

/-- electronic/ExactExchange.cpp:157 in `applyHamiltonian`: what is added to `HCq`. -/
def aceApply {m k : ℕ} (aXX : ℝ) (psi : Matrix (Fin m) (Fin n) ℂ) (C : Matrix (Fin m) (Fin k) ℂ) : Matrix (Fin m) (Fin k) ℂ := -((aXX : ℂ) • (psi * (psiᴴ * C)))

/-- electronic/ExactExchange.cpp:158 in `applyHamiltonian`: the energy returned. -/
def aceEnergy {m k : ℕ} (aXX weight : ℝ) (psi : Matrix (Fin m) (Fin n) ℂ) (F : Fin k → ℝ) (C : Matrix (Fin m) (Fin k) ℂ) : ℝ :=
  (-0.5 * aXX * weight) * ((psiᴴ * C) * diagonal (fun b => (F b : ℂ)) * (psiᴴ * C)ᴴ).trace.re

end
end Jdftx.MatFunc
