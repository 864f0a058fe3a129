import Verif.Model.Ylm
import Mathlib.Analysis.Calculus.Deriv.Pow
import Mathlib.Analysis.Calculus.Deriv.Add
import Mathlib.Analysis.Calculus.Deriv.Mul
import Mathlib.Tactic.Ring
import Mathlib.Tactic.Linarith
import Mathlib.Tactic.NormNum
import Mathlib.Tactic.FieldSimp

/-!
# Polynomials in three variables with integer coefficients, by computation
-/
namespace Jdftx.Ylm

/-- Coefficient and exponents. -/
abbrev Mono := ℤ × Nat × Nat × Nat
abbrev Poly := List Mono

noncomputable def Mono.eval (t : Mono) (x y z : ℝ) : ℝ := (t.1 : ℝ) * (x ^ t.2.1 * y ^ t.2.2.1 * z ^ t.2.2.2)
noncomputable def Poly.eval (p : Poly) (x y z : ℝ) : ℝ := (p.map fun t => t.eval x y z).sum

def ins (t : Mono) : Poly → Poly
  | [] => [t]
  | u :: p => if t.2 = u.2 then (t.1 + u.1, u.2) :: p else u :: ins t p
def add (p q : Poly) : Poly := p.foldr ins q
def scale (c : ℤ) (p : Poly) : Poly := p.map fun t => (c * t.1, t.2)
def mulT (t : Mono) (q : Poly) : Poly := q.map fun u => (t.1 * u.1, t.2.1 + u.2.1, t.2.2.1 + u.2.2.1, t.2.2.2 + u.2.2.2)
def mul (p q : Poly) : Poly := p.foldr (fun t acc => add (mulT t q) acc) []
def size (p : Poly) : Nat := (p.map fun t => t.1.natAbs).sum
def ddx (p : Poly) : Poly := p.map fun t => (t.1 * t.2.1, t.2.1 - 1, t.2.2.1, t.2.2.2)
def ddy (p : Poly) : Poly := p.map fun t => (t.1 * t.2.2.1, t.2.1, t.2.2.1 - 1, t.2.2.2)
def ddz (p : Poly) : Poly := p.map fun t => (t.1 * t.2.2.2, t.2.1, t.2.2.1, t.2.2.2 - 1)
/-- `x² + y² + z²`. -/
def rr : Poly := [(1, 2, 0, 0), (1, 0, 2, 0), (1, 0, 0, 2)]
def rrPow : Nat → Poly → Poly
  | 0, p => p
  | k + 1, p => mul rr (rrPow k p)

variable {x y z : ℝ}

@[simp] theorem eval_nil : Poly.eval [] x y z = 0 := rfl
@[simp] theorem eval_cons (t : Mono) (p : Poly) : Poly.eval (t :: p) x y z = t.eval x y z + Poly.eval p x y z := rfl

theorem eval_ins (t : Mono) (p : Poly) : (ins t p).eval x y z = t.eval x y z + p.eval x y z := by
  induction p with
  | nil => rfl
  | cons u p ih =>
    unfold ins
    split_ifs with h
    · simp only [eval_cons, Mono.eval, h]; push_cast; ring
    · simp only [eval_cons, ih]; ring

theorem eval_add (p q : Poly) : (add p q).eval x y z = p.eval x y z + q.eval x y z := by
  unfold add
  induction p with
  | nil => simp
  | cons t p ih => simp only [List.foldr_cons, eval_ins, eval_cons, ih]; ring

theorem eval_scale (c : ℤ) (p : Poly) : (scale c p).eval x y z = c * p.eval x y z := by
  unfold scale
  induction p with
  | nil => simp
  | cons t p ih => simp only [List.map_cons, eval_cons, ih, Mono.eval]; push_cast; ring

theorem eval_mulT (t : Mono) (q : Poly) : (mulT t q).eval x y z = t.eval x y z * q.eval x y z := by
  unfold mulT
  induction q with
  | nil => simp
  | cons u q ih => simp only [List.map_cons, eval_cons, ih, Mono.eval]; push_cast; ring

theorem eval_mul (p q : Poly) : (mul p q).eval x y z = p.eval x y z * q.eval x y z := by
  unfold mul
  induction p with
  | nil => simp
  | cons t p ih => simp only [List.foldr_cons, eval_add, eval_mulT, eval_cons, ih]; ring

theorem eval_rr : rr.eval x y z = x ^ 2 + y ^ 2 + z ^ 2 := by
  simp [rr, Mono.eval]; ring

theorem eval_rrPow (h : x ^ 2 + y ^ 2 + z ^ 2 = 1) (k : Nat) (p : Poly) : (rrPow k p).eval x y z = p.eval x y z := by
  induction k with
  | zero => rfl
  | succ k ih => rw [rrPow, eval_mul, eval_rr, h, ih, one_mul]

theorem unit_le (h : x ^ 2 + y ^ 2 + z ^ 2 = 1) : |x| ≤ 1 ∧ |y| ≤ 1 ∧ |z| ≤ 1 := by
  refine ⟨?_, ?_, ?_⟩ <;> rw [abs_le] <;> constructor <;> nlinarith [sq_nonneg x, sq_nonneg y, sq_nonneg z]

theorem eval_le (h : x ^ 2 + y ^ 2 + z ^ 2 = 1) (p : Poly) : |p.eval x y z| ≤ size p := by
  obtain ⟨hx, hy, hz⟩ := unit_le h
  unfold size
  induction p with
  | nil => simp
  | cons t p ih =>
    simp only [eval_cons, List.map_cons, List.sum_cons, Nat.cast_add]
    refine (abs_add_le _ _).trans (add_le_add ?_ ih)
    unfold Mono.eval
    rw [abs_mul, abs_mul, abs_mul, abs_pow, abs_pow, abs_pow]
    have e : |((t.1 : ℤ) : ℝ)| = (t.1.natAbs : ℝ) := by rw [Nat.cast_natAbs, Int.cast_abs]
    rw [e]
    refine mul_le_of_le_one_right (Nat.cast_nonneg _) ?_
    have h1 := pow_le_one₀ (n := t.2.1) (abs_nonneg x) hx
    have h2 := pow_le_one₀ (n := t.2.2.1) (abs_nonneg y) hy
    have h3 := pow_le_one₀ (n := t.2.2.2) (abs_nonneg z) hz
    have h4 := pow_nonneg (abs_nonneg x) t.2.1
    have h5 := pow_nonneg (abs_nonneg y) t.2.2.1
    have h6 := pow_nonneg (abs_nonneg z) t.2.2.2
    calc _ ≤ (1 : ℝ) * 1 * 1 := by gcongr
      _ = 1 := by norm_num

theorem eval_ddx (p : Poly) : HasDerivAt (fun x => p.eval x y z) ((ddx p).eval x y z) x := by
  unfold ddx
  induction p with
  | nil => simpa using hasDerivAt_const x (0 : ℝ)
  | cons t p ih =>
    simp only [eval_cons, List.map_cons]
    refine HasDerivAt.fun_add ?_ ih
    have := ((hasDerivAt_pow t.2.1 x).mul_const (y ^ t.2.2.1 * z ^ t.2.2.2)).const_mul (t.1 : ℝ)
    simp only [Mono.eval, mul_assoc] at this ⊢
    refine this.congr_deriv ?_
    push_cast; ring

theorem eval_ddy (p : Poly) : HasDerivAt (fun y => p.eval x y z) ((ddy p).eval x y z) y := by
  unfold ddy
  induction p with
  | nil => simpa using hasDerivAt_const y (0 : ℝ)
  | cons t p ih =>
    simp only [eval_cons, List.map_cons]
    refine HasDerivAt.fun_add ?_ ih
    have := (((hasDerivAt_pow t.2.2.1 y).mul_const (z ^ t.2.2.2)).const_mul (x ^ t.2.1)).const_mul (t.1 : ℝ)
    simp only [Mono.eval, mul_assoc] at this ⊢
    refine this.congr_deriv ?_
    push_cast; ring

theorem eval_ddz (p : Poly) : HasDerivAt (fun z => p.eval x y z) ((ddz p).eval x y z) z := by
  unfold ddz
  induction p with
  | nil => simpa using hasDerivAt_const z (0 : ℝ)
  | cons t p ih =>
    simp only [eval_cons, List.map_cons]
    refine HasDerivAt.fun_add ?_ ih
    show HasDerivAt (fun z => t.eval x y z) _ z
    have := (((hasDerivAt_pow t.2.2.2 z).const_mul (y ^ t.2.2.1)).const_mul (x ^ t.2.1)).const_mul (t.1 : ℝ)
    simp only [Mono.eval, mul_assoc] at this ⊢
    refine this.congr_deriv ?_
    push_cast; ring

/-- A polynomial all of whose coefficients vanish. -/
theorem eval_zero (p : Poly) (h : size p = 0) : p.eval x y z = 0 := by
  unfold size at h
  induction p with
  | nil => rfl
  | cons t p ih =>
    simp only [List.map_cons, List.sum_cons, Nat.add_eq_zero_iff, Int.natAbs_eq_zero] at h
    rw [eval_cons, ih h.2, Mono.eval, h.1]
    simp

/-- Degree of every term. -/
def homogeneous (l : Nat) (p : Poly) : Bool := p.all fun t => t.2.1 + t.2.2.1 + t.2.2.2 == l

theorem eval_homogeneous (l : Nat) (p : Poly) (h : homogeneous l p = true) (c : ℝ) : p.eval (c * x) (c * y) (c * z) = c ^ l * p.eval x y z := by
  unfold homogeneous at h
  induction p with
  | nil => simp
  | cons t p ih =>
    simp only [List.all_cons, Bool.and_eq_true, beq_iff_eq] at h
    rw [eval_cons, eval_cons, ih h.2, ← h.1]
    simp only [Mono.eval, mul_pow, pow_add]
    ring

/-! ### The harmonics as polynomials, in units of 1e-18 -/

def yPoly : Nat → Poly
  | 0 => [(282094791773878140, 0, 0, 0)]
  | 1 => [(488602511902919900, 0, 1, 0)]
  | 2 => [(488602511902919900, 0, 0, 1)]
  | 3 => [(488602511902919900, 1, 0, 0)]
  | 4 => [(1092548430592079200, 1, 1, 0)]
  | 5 => [(1092548430592079200, 0, 1, 1)]
  | 6 => [(-315391565252520050, 2, 0, 0), (-315391565252520050, 0, 2, 0), (630783130505040100, 0, 0, 2)]
  | 7 => [(1092548430592079200, 1, 0, 1)]
  | 8 => [(546274215296039600, 2, 0, 0), (-546274215296039600, 0, 2, 0)]
  | 9 => [(1770130769779930500, 2, 1, 0), (-590043589926643500, 0, 3, 0)]
  | 10 => [(2890611442640554000, 1, 1, 1)]
  | 11 => [(-457045799464465800, 2, 1, 0), (-457045799464465800, 0, 3, 0), (1828183197857863200, 0, 1, 2)]
  | 12 => [(-1119528997770346200, 2, 0, 1), (-1119528997770346200, 0, 2, 1), (746352665180230800, 0, 0, 3)]
  | 13 => [(-457045799464465800, 3, 0, 0), (-457045799464465800, 1, 2, 0), (1828183197857863200, 1, 0, 2)]
  | 14 => [(1445305721320277000, 2, 0, 1), (-1445305721320277000, 0, 2, 1)]
  | 15 => [(590043589926643500, 3, 0, 0), (-1770130769779930500, 1, 2, 0)]
  | 16 => [(2503342941796704600, 3, 1, 0), (-2503342941796704600, 1, 3, 0)]
  | 17 => [(5310392309339791200, 2, 1, 1), (-1770130769779930400, 0, 3, 1)]
  | 18 => [(-946174695757560100, 3, 1, 0), (-946174695757560100, 1, 3, 0), (5677048174545360600, 1, 1, 2)]
  | 19 => [(-2007139630671867600, 2, 1, 1), (-2007139630671867600, 0, 3, 1), (2676186174229156800, 0, 1, 3)]
  | 20 => [(317356640745612930, 4, 0, 0), (634713281491225860, 2, 2, 0), (-2538853125964903440, 2, 0, 2), (317356640745612930, 0, 4, 0), (-2538853125964903440, 0, 2, 2), (846284375321634480, 0, 0, 4)]
  | 21 => [(-2007139630671867600, 3, 0, 1), (-2007139630671867600, 1, 2, 1), (2676186174229156800, 1, 0, 3)]
  | 22 => [(-473087347878780040, 4, 0, 0), (2838524087272680240, 2, 0, 2), (473087347878780040, 0, 4, 0), (-2838524087272680240, 0, 2, 2)]
  | 23 => [(1770130769779930400, 3, 0, 1), (-5310392309339791200, 1, 2, 1)]
  | 24 => [(625835735449176100, 4, 0, 0), (-3755014412695056600, 2, 2, 0), (625835735449176100, 0, 4, 0)]
  | 25 => [(3281910284200850500, 4, 1, 0), (-6563820568401701000, 2, 3, 0), (656382056840170100, 0, 5, 0)]
  | 26 => [(8302649259524166000, 3, 1, 1), (-8302649259524166000, 1, 3, 1)]
  | 27 => [(-1467714898305751200, 4, 1, 0), (-978476598870500800, 2, 3, 0), (11741719186446009600, 2, 1, 2), (489238299435250400, 0, 5, 0), (-3913906395482003200, 0, 3, 2)]
  | 28 => [(-4793536784973324000, 3, 1, 1), (-4793536784973324000, 1, 3, 1), (9587073569946648000, 1, 1, 3)]
  | 29 => [(452946651195696940, 4, 1, 0), (905893302391393880, 2, 3, 0), (-5435359814348363280, 2, 1, 2), (452946651195696940, 0, 5, 0), (-5435359814348363280, 0, 3, 2), (3623573209565575520, 0, 1, 4)]
  | 30 => [(1754254836801354000, 4, 0, 1), (3508509673602708000, 2, 2, 1), (-4678012898136944000, 2, 0, 3), (1754254836801354000, 0, 4, 1), (-4678012898136944000, 0, 2, 3), (935602579627388800, 0, 0, 5)]
  | 31 => [(452946651195696940, 5, 0, 0), (905893302391393880, 3, 2, 0), (-5435359814348363280, 3, 0, 2), (452946651195696940, 1, 4, 0), (-5435359814348363280, 1, 2, 2), (3623573209565575520, 1, 0, 4)]
  | 32 => [(-2396768392486662000, 4, 0, 1), (4793536784973324000, 2, 0, 3), (2396768392486662000, 0, 4, 1), (-4793536784973324000, 0, 2, 3)]
  | 33 => [(-489238299435250400, 5, 0, 0), (978476598870500800, 3, 2, 0), (3913906395482003200, 3, 0, 2), (1467714898305751200, 1, 4, 0), (-11741719186446009600, 1, 2, 2)]
  | 34 => [(2075662314881041600, 4, 0, 1), (-12453973889286249600, 2, 2, 1), (2075662314881041600, 0, 4, 1)]
  | 35 => [(656382056840170100, 5, 0, 0), (-6563820568401701000, 3, 2, 0), (3281910284200850500, 1, 4, 0)]
  | 36 => [(4099104631151485800, 5, 1, 0), (-13663682103838286000, 3, 3, 0), (4099104631151485800, 1, 5, 0)]
  | 37 => [(11833095811158760000, 4, 1, 1), (-23666191622317520000, 2, 3, 1), (2366619162231752000, 0, 5, 1)]
  | 38 => [(-2018259602914896700, 5, 1, 0), (20182596029148967000, 3, 1, 2), (2018259602914896700, 1, 5, 0), (-20182596029148967000, 1, 3, 2)]
  | 39 => [(-8290847335634312400, 4, 1, 1), (-5527231557089541600, 2, 3, 1), (22108926228358166400, 2, 1, 3), (2763615778544770800, 0, 5, 1), (-7369642076119388800, 0, 3, 3)]
  | 40 => [(921205259514923600, 5, 1, 0), (1842410519029847200, 3, 3, 0), (-14739284152238777600, 3, 1, 2), (921205259514923600, 1, 5, 0), (-14739284152238777600, 1, 3, 2), (14739284152238777600, 1, 1, 4)]
  | 41 => [(2913106812593657000, 4, 1, 1), (5826213625187314000, 2, 3, 1), (-11652427250374628000, 2, 1, 3), (2913106812593657000, 0, 5, 1), (-11652427250374628000, 0, 3, 3), (4660970900149851200, 0, 1, 5)]
  | 42 => [(-317846011338142100, 6, 0, 0), (-953538034014426300, 4, 2, 0), (5721228204086557800, 4, 0, 2), (-953538034014426300, 2, 4, 0), (11442456408173115600, 2, 2, 2), (-7628304272115410400, 2, 0, 4), (-317846011338142100, 0, 6, 0), (5721228204086557800, 0, 4, 2), (-7628304272115410400, 0, 2, 4), (1017107236282054720, 0, 0, 6)]
  | 43 => [(2913106812593657000, 5, 0, 1), (5826213625187314000, 3, 2, 1), (-11652427250374628000, 3, 0, 3), (2913106812593657000, 1, 4, 1), (-11652427250374628000, 1, 2, 3), (4660970900149851200, 1, 0, 5)]
  | 44 => [(460602629757461800, 6, 0, 0), (460602629757461800, 4, 2, 0), (-7369642076119388800, 4, 0, 2), (-460602629757461800, 2, 4, 0), (7369642076119388800, 2, 0, 4), (-460602629757461800, 0, 6, 0), (7369642076119388800, 0, 4, 2), (-7369642076119388800, 0, 2, 4)]
  | 45 => [(-2763615778544770800, 5, 0, 1), (5527231557089541600, 3, 2, 1), (7369642076119388800, 3, 0, 3), (8290847335634312400, 1, 4, 1), (-22108926228358166400, 1, 2, 3)]
  | 46 => [(-504564900728724200, 6, 0, 0), (2522824503643621000, 4, 2, 0), (5045649007287242000, 4, 0, 2), (2522824503643621000, 2, 4, 0), (-30273894043723452000, 2, 2, 2), (-504564900728724200, 0, 6, 0), (5045649007287242000, 0, 4, 2)]
  | 47 => [(2366619162231752000, 5, 0, 1), (-23666191622317520000, 3, 2, 1), (11833095811158760000, 1, 4, 1)]
  | 48 => [(683184105191914300, 6, 0, 0), (-10247761577878714500, 4, 2, 0), (10247761577878714500, 2, 4, 0), (-683184105191914300, 0, 6, 0)]
  | _ => []

theorem flat_eq (lm : Nat) : flat lm x y z = (yPoly lm).eval x y z / 10 ^ 18 := by
  match lm with
  | 0 => simp only [flat, yPoly, eval_cons, eval_nil, Mono.eval]; push_cast; ring
  | 1 => simp only [flat, yPoly, eval_cons, eval_nil, Mono.eval]; push_cast; ring
  | 2 => simp only [flat, yPoly, eval_cons, eval_nil, Mono.eval]; push_cast; ring
  | 3 => simp only [flat, yPoly, eval_cons, eval_nil, Mono.eval]; push_cast; ring
  | 4 => simp only [flat, yPoly, eval_cons, eval_nil, Mono.eval]; push_cast; ring
  | 5 => simp only [flat, yPoly, eval_cons, eval_nil, Mono.eval]; push_cast; ring
  | 6 => simp only [flat, yPoly, eval_cons, eval_nil, Mono.eval]; push_cast; ring
  | 7 => simp only [flat, yPoly, eval_cons, eval_nil, Mono.eval]; push_cast; ring
  | 8 => simp only [flat, yPoly, eval_cons, eval_nil, Mono.eval]; push_cast; ring
  | 9 => simp only [flat, yPoly, eval_cons, eval_nil, Mono.eval]; push_cast; ring
  | 10 => simp only [flat, yPoly, eval_cons, eval_nil, Mono.eval]; push_cast; ring
  | 11 => simp only [flat, yPoly, eval_cons, eval_nil, Mono.eval]; push_cast; ring
  | 12 => simp only [flat, yPoly, eval_cons, eval_nil, Mono.eval]; push_cast; ring
  | 13 => simp only [flat, yPoly, eval_cons, eval_nil, Mono.eval]; push_cast; ring
  | 14 => simp only [flat, yPoly, eval_cons, eval_nil, Mono.eval]; push_cast; ring
  | 15 => simp only [flat, yPoly, eval_cons, eval_nil, Mono.eval]; push_cast; ring
  | 16 => simp only [flat, yPoly, eval_cons, eval_nil, Mono.eval]; push_cast; ring
  | 17 => simp only [flat, yPoly, eval_cons, eval_nil, Mono.eval]; push_cast; ring
  | 18 => simp only [flat, yPoly, eval_cons, eval_nil, Mono.eval]; push_cast; ring
  | 19 => simp only [flat, yPoly, eval_cons, eval_nil, Mono.eval]; push_cast; ring
  | 20 => simp only [flat, yPoly, eval_cons, eval_nil, Mono.eval]; push_cast; ring
  | 21 => simp only [flat, yPoly, eval_cons, eval_nil, Mono.eval]; push_cast; ring
  | 22 => simp only [flat, yPoly, eval_cons, eval_nil, Mono.eval]; push_cast; ring
  | 23 => simp only [flat, yPoly, eval_cons, eval_nil, Mono.eval]; push_cast; ring
  | 24 => simp only [flat, yPoly, eval_cons, eval_nil, Mono.eval]; push_cast; ring
  | 25 => simp only [flat, yPoly, eval_cons, eval_nil, Mono.eval]; push_cast; ring
  | 26 => simp only [flat, yPoly, eval_cons, eval_nil, Mono.eval]; push_cast; ring
  | 27 => simp only [flat, yPoly, eval_cons, eval_nil, Mono.eval]; push_cast; ring
  | 28 => simp only [flat, yPoly, eval_cons, eval_nil, Mono.eval]; push_cast; ring
  | 29 => simp only [flat, yPoly, eval_cons, eval_nil, Mono.eval]; push_cast; ring
  | 30 => simp only [flat, yPoly, eval_cons, eval_nil, Mono.eval]; push_cast; ring
  | 31 => simp only [flat, yPoly, eval_cons, eval_nil, Mono.eval]; push_cast; ring
  | 32 => simp only [flat, yPoly, eval_cons, eval_nil, Mono.eval]; push_cast; ring
  | 33 => simp only [flat, yPoly, eval_cons, eval_nil, Mono.eval]; push_cast; ring
  | 34 => simp only [flat, yPoly, eval_cons, eval_nil, Mono.eval]; push_cast; ring
  | 35 => simp only [flat, yPoly, eval_cons, eval_nil, Mono.eval]; push_cast; ring
  | 36 => simp only [flat, yPoly, eval_cons, eval_nil, Mono.eval]; push_cast; ring
  | 37 => simp only [flat, yPoly, eval_cons, eval_nil, Mono.eval]; push_cast; ring
  | 38 => simp only [flat, yPoly, eval_cons, eval_nil, Mono.eval]; push_cast; ring
  | 39 => simp only [flat, yPoly, eval_cons, eval_nil, Mono.eval]; push_cast; ring
  | 40 => simp only [flat, yPoly, eval_cons, eval_nil, Mono.eval]; push_cast; ring
  | 41 => simp only [flat, yPoly, eval_cons, eval_nil, Mono.eval]; push_cast; ring
  | 42 => simp only [flat, yPoly, eval_cons, eval_nil, Mono.eval]; push_cast; ring
  | 43 => simp only [flat, yPoly, eval_cons, eval_nil, Mono.eval]; push_cast; ring
  | 44 => simp only [flat, yPoly, eval_cons, eval_nil, Mono.eval]; push_cast; ring
  | 45 => simp only [flat, yPoly, eval_cons, eval_nil, Mono.eval]; push_cast; ring
  | 46 => simp only [flat, yPoly, eval_cons, eval_nil, Mono.eval]; push_cast; ring
  | 47 => simp only [flat, yPoly, eval_cons, eval_nil, Mono.eval]; push_cast; ring
  | 48 => simp only [flat, yPoly, eval_cons, eval_nil, Mono.eval]; push_cast; ring
  | n + 49 => simp [flat, yPoly]

end Jdftx.Ylm
