import Mathlib.Analysis.Real.Sqrt
import Mathlib.Analysis.Real.Pi.Bounds
/-!
# Model of radial quadrature weights (jdftx/core/RadialFunction.cpp)

Arrays are functions of the index; reals are exact. The division of the loop over nodes among threads is not modelled (each
node is written by one thread only).
-/
namespace Jdftx.RadW
noncomputable section

/-- `f[i] += v` -/
def addAt (f : ℕ → ℝ) (i : ℕ) (v : ℝ) : ℕ → ℝ := fun k => if k = i then f k + v else f k

/-- RadialFunction.cpp:95-98: sub-diagonal, diagonal, super-diagonal, right-hand side. -/
structure Tri where
  a : ℕ → ℝ
  b : ℕ → ℝ
  c : ℕ → ℝ
  d : ℕ → ℝ

/-- RadialFunction.cpp:102: `hInv` -/
def hInv (r : ℕ → ℝ) (i : ℕ) : ℝ := 1 / (r (i + 1) - r i)

/-- RadialFunction.cpp:103: `rhs` -/
def rhs (r y : ℕ → ℝ) (i : ℕ) : ℝ := 3 * hInv r i * hInv r i * (y (i + 1) - y i)

/-- RadialFunction.cpp:104-105: contributions of interval `i`. -/
def interval (r y : ℕ → ℝ) (i : ℕ) (t : Tri) : Tri :=
  ⟨addAt t.a (i + 1) (hInv r i),
   addAt (addAt t.b i (2 * hInv r i)) (i + 1) (2 * hInv r i),
   addAt t.c i (hInv r i),
   addAt (addAt t.d i (rhs r y i)) (i + 1) (rhs r y i)⟩

/-- RadialFunction.cpp:95-106: the equations after `m` intervals. -/
def assemble (r y : ℕ → ℝ) : ℕ → Tri
  | 0 => ⟨fun _ => 0, fun _ => 0, fun _ => 0, fun _ => 0⟩
  | m + 1 => interval r y m (assemble r y m)

/-- RadialFunction.cpp:108-112: the diagonal and the right-hand side after elimination. Every entry is written once, when it
is reached, and the entry before has been written then; so the loop is a recursion on the index. -/
def eliminate (t : Tri) : ℕ → ℝ × ℝ
  | 0 => (t.b 0, t.d 0)
  | i + 1 =>
    let frac := t.a (i + 1) / (eliminate t i).1
    (t.b (i + 1) - frac * t.c i, t.d (i + 1) - frac * (eliminate t i).2)

/-- RadialFunction.cpp:114-116: the slope at node `last - k`. -/
def back (t : Tri) (last : ℕ) : ℕ → ℝ
  | 0 => (eliminate t last).2 / (eliminate t last).1
  | k + 1 =>
    let i := last - (k + 1)
    ((eliminate t i).2 - t.c i * back t last k) / (eliminate t i).1

/-- RadialFunction.cpp:113-116: slopes at all nodes, for `n` samples. -/
def slopes (r y : ℕ → ℝ) (n : ℕ) : ℕ → ℝ := fun i => back (assemble r y (n - 1)) (n - 1) (n - 1 - i)

/-- RadialFunction.cpp:119-127: `wj` after `m` intervals. -/
def integrate (r y yp : ℕ → ℝ) : ℕ → ℝ
  | 0 => 1 / 3 * (r 0 * r 0 * r 0) * (y 0 - 1 / 4 * r 0 * yp 0)
  | i + 1 =>
    let r0 := r i; let y0 := y i; let yp0 := yp i
    let r1 := r (i + 1); let y1 := y (i + 1); let yp1 := yp (i + 1)
    integrate r y yp i + 1 / 60 * (r1 - r0) * (r0 * r1 * 10 * (y0 + y1)
      + r0 * r0 * (16 * y0 + 4 * y1 + r0 * (yp1 - 2 * yp0) + r1 * yp1)
      + r1 * r1 * (16 * y1 + 4 * y0 + r1 * (yp0 - 2 * yp1) + r0 * yp0))

/-- RadialFunction.cpp:99: one at node `j`, zero at all others. -/
def unit (j : ℕ) : ℕ → ℝ := fun i => if i = j then 1 else 0

/-- RadialFunction.cpp:92-130: the weight of node `j`. -/
def weight (r : ℕ → ℝ) (n j : ℕ) : ℝ := integrate r (unit j) (slopes r (unit j) n) (n - 1) / (r j * r j)

/-- RadialFunction.cpp:142: a first node at zero is moved. -/
def fixFirst (r : ℕ → ℝ) : ℕ → ℝ := fun i => if i = 0 ∧ r 0 = 0 then 1 / 10 ^ 6 * r 1 else r i

/-- RadialFunction.cpp:137-140: the assertions. -/
def valid (r : ℕ → ℝ) (n : ℕ) : Prop := 2 ≤ n ∧ 0 ≤ r 0 ∧ ∀ i, i + 1 < n → r i < r (i + 1)

/-- RadialFunction.cpp:133-145 `initWeights` after its assertions: the nodes and the weights. -/
def initWeights (r : ℕ → ℝ) (n : ℕ) : (ℕ → ℝ) × (ℕ → ℝ) := (fixFirst r, weight (fixFirst r) n)

/-- RadialFunction.cpp:156: factor of Simpson's rule. -/
def simpson (half i : ℕ) : ℕ := if i = 0 ∨ i = 2 * half then 1 else 2 * (i % 2 + 1)

/-- RadialFunction.cpp:149-159 `transform` with the spherical Bessel function as parameter. -/
def transform (bessel : ℝ → ℝ) (r dr f : ℕ → ℝ) (n : ℕ) (G : ℝ) : ℝ :=
  let half := (n - 1) / 2
  4 * Real.pi / 3 * (List.range (2 * half + 1)).foldl
    (fun sum i => sum + f i * bessel (G * r i) * (dr i * r i * r i) * (simpson half i : ℝ)) 0

end
end Jdftx.RadW
