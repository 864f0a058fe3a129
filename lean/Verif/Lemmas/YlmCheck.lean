import Verif.Lemmas.YlmPoly
import Mathlib.Analysis.Calculus.Deriv.Basic

/-!
# Checks of the tables
-/
namespace Jdftx.Ylm

/-! ### Products -/

/-- The quantum number `l` of a flat index. -/
def lOf (lm : Nat) : Nat := if lm < 1 then 0 else if lm < 4 then 1 else if lm < 9 then 2 else if lm < 16 then 3 else if lm < 25 then 4 else if lm < 36 then 5 else 6

/-- Coefficient in units of 1e-18. -/
def c18 (t : Term) : ℤ := (t.coeff * 10 ^ 18).num

def flatOf (t : Term) : Nat := (t.l * (t.l + 1) + t.m).toNat

def termOk (t : Term) : Bool := (t.coeff * 10 ^ 18).den == 1 && decide (0 ≤ t.l * (t.l + 1) + t.m)

def termsPoly (L : Nat) (ts : List Term) : Poly := ts.foldr (fun t acc => add (scale (c18 t) (rrPow ((L - lOf (flatOf t)) / 2) (yPoly (flatOf t)))) acc) []

def prodOk (lm1 lm2 : Nat) : Bool :=
  (expand lm1 lm2).all termOk &&
  decide (size (add (mul (yPoly lm1) (yPoly lm2)) (scale (-1) (termsPoly (lOf lm1 + lOf lm2) (expand lm1 lm2)))) ≤ 2 * 10 ^ 21)

set_option maxRecDepth 20000 in
theorem prod_all : ∀ lm1 < 16, ∀ lm2 < 16, prodOk lm1 lm2 = true := by decide +kernel


/-! ### Harmonic and homogeneous -/

def mOf (lm : Nat) : ℤ := (lm : ℤ) - (lOf lm : ℤ) * ((lOf lm : ℤ) + 1)

def lap (p : Poly) : Poly := add (add (ddx (ddx p)) (ddy (ddy p))) (ddz (ddz p))

theorem harm_all : ∀ lm < 49, (homogeneous (lOf lm) (yPoly lm) && size (lap (yPoly lm)) == 0) = true := by decide +kernel

/-! ### Square roots of rational numbers -/

/-- The square root of a natural number, bit by bit. -/
def isqGo (n : Nat) : Nat → Nat → Nat
  | 0, r => if (r + 1) * (r + 1) ≤ n then r + 1 else r
  | b + 1, r => isqGo n b (if (r + 2 ^ (b + 1)) * (r + 2 ^ (b + 1)) ≤ n then r + 2 ^ (b + 1) else r)
def isq (n : Nat) : Nat := isqGo n 75 0

/-- Square root in units of 1e-20. -/
def sq20 (q : ℚ) : Nat := isq (q * 10 ^ 40).floor.toNat

def sq20Ok (q : ℚ) : Bool := decide (((sq20 q : ℚ)) ^ 2 ≤ q * 10 ^ 40 ∧ q * 10 ^ 40 ≤ ((sq20 q : ℚ) + 1) ^ 2)

theorem sq20_spec (q : ℚ) (h : sq20Ok q = true) : |Real.sqrt (q : ℝ) - (sq20 q : ℝ) / 10 ^ 20| ≤ 1 / 10 ^ 20 := by
  unfold sq20Ok at h
  rw [decide_eq_true_eq] at h
  obtain ⟨h1, h2⟩ := h
  have h1' : ((sq20 q : ℝ)) ^ 2 ≤ (q : ℝ) * 10 ^ 40 := by exact_mod_cast h1
  have h2' : (q : ℝ) * 10 ^ 40 ≤ ((sq20 q : ℝ) + 1) ^ 2 := by exact_mod_cast h2
  have hr : (0 : ℝ) ≤ (sq20 q : ℝ) := Nat.cast_nonneg _
  generalize (sq20 q : ℝ) = r at *
  have a : r / 10 ^ 20 ≤ Real.sqrt (q : ℝ) := by
    apply Real.le_sqrt_of_sq_le
    rw [div_pow, div_le_iff₀ (by positivity)]
    calc r ^ 2 ≤ (q : ℝ) * 10 ^ 40 := h1'
      _ = _ := by norm_num
  have b : Real.sqrt (q : ℝ) ≤ (r + 1) / 10 ^ 20 := by
    apply Real.sqrt_le_iff.2
    refine ⟨by positivity, ?_⟩
    rw [div_pow, le_div_iff₀ (by positivity)]
    calc _ = (q : ℝ) * 10 ^ 40 := by norm_num
      _ ≤ _ := h2'
  rw [abs_le]
  constructor
  · have : (0 : ℝ) ≤ 1 / 10 ^ 20 := by positivity
    linarith
  · rw [add_div] at b; linarith

/-! ### Gradient -/

/-- Sign, squared coefficient, flat index. -/
abbrev GTerm := ℤ × ℚ × ℤ

noncomputable def gSum (ts : List GTerm) (x y z : ℝ) : ℝ := (ts.map fun t => (t.1 : ℝ) * Real.sqrt (t.2.1 : ℝ) * flatZ t.2.2 x y z).sum

def fl (l m : ℤ) : ℤ := l * (l + 1) + m

def gX (l m : ℤ) : List GTerm :=
  let L : ℚ := l
  let M : ℚ := m
  let aM : ℚ := (L - M) * (L - M - 1) * (2 * L + 1) / (2 * L - 1)
  let aP : ℚ := (L + M) * (L + M - 1) * (2 * L + 1) / (2 * L - 1)
  if m = 0 then (if l > 1 then [(-1, L * (L - 1) * (2 * L + 1) / (2 * L - 1) / 2, fl (l - 1) 1)] else [])
  else if m > 0 then
    (if l > m + 1 then [(-1, aM / 4, fl (l - 1) (m + 1))] else []) ++ (if l ≥ m then [(1, if m = 1 then aP / 2 else aP / 4, fl (l - 1) (m - 1))] else [])
  else
    (if -l ≤ m then [(if m = -1 then 0 else 1, aM / 4, fl (l - 1) (m + 1))] else []) ++ (if -l < m - 1 then [(-1, aP / 4, fl (l - 1) (m - 1))] else [])

def gY (l m : ℤ) : List GTerm :=
  let L : ℚ := l
  let M : ℚ := m
  let aM : ℚ := (L - M) * (L - M - 1) * (2 * L + 1) / (2 * L - 1)
  let aP : ℚ := (L + M) * (L + M - 1) * (2 * L + 1) / (2 * L - 1)
  if m = 0 then (if l > 1 then [(-1, L * (L - 1) * (2 * L + 1) / (2 * L - 1) / 2, fl (l - 1) (-1))] else [])
  else if m > 0 then
    (if l > m + 1 then [(-1, aM / 4, fl (l - 1) (-(m + 1)))] else []) ++ (if l ≥ m then [(if m = 1 then 0 else -1, aP / 4, fl (l - 1) (-(m - 1)))] else [])
  else
    (if -l ≤ m then [(1, if m = -1 then aM / 2 else aM / 4, fl (l - 1) (-(m + 1)))] else []) ++ (if -l < m - 1 then [(1, aP / 4, fl (l - 1) (-(m - 1)))] else [])

def gZ (l m : ℤ) : List GTerm :=
  let L : ℚ := l
  let M : ℚ := m
  if l > 0 then [(1, (L * L - M * M) * (2 * L + 1) / (2 * L - 1), fl (l - 1) m)] else []

variable {x y z : ℝ}

theorem half_sqrt (a : ℝ) : 0.5 * Real.sqrt a = Real.sqrt (a / 4) := by
  have : Real.sqrt (a / 4) = Real.sqrt a / 2 := by
    rw [Real.sqrt_div' _ (by norm_num), show (4 : ℝ) = 2 ^ 2 by norm_num, Real.sqrt_sq (by norm_num)]
  rw [this]; ring

theorem half_sqrt_two (a : ℝ) : Real.sqrt (a / 4) * Real.sqrt 2 = Real.sqrt (a / 2) := by
  rw [mul_comm, ← Real.sqrt_mul (by norm_num)]
  congr 1; ring

set_option linter.unusedSimpArgs false in
theorem prime_eq (l m : ℤ) : prime l m x y z = (gSum (gX l m) x y z, gSum (gY l m) x y z, gSum (gZ l m) x y z) := by
  have hz : (prime l m x y z).2.2 = gSum (gZ l m) x y z := by
    unfold prime gZ gSum
    by_cases hl : l > 0
    · by_cases hm : m = 0 <;> by_cases hp : m > 0 <;> by_cases h1 : l > 1 <;> simp [hl, hm, hp, h1, Y, fl]
    · by_cases hm : m = 0 <;> by_cases hp : m > 0 <;> by_cases h1 : l > 1 <;> simp [hl, hm, hp, h1]
  have hx : (prime l m x y z).1 = gSum (gX l m) x y z := by
    unfold prime gX gSum
    by_cases hm : m = 0
    · by_cases h1 : l > 1
      · simp only [hm, h1, if_true, List.map_cons, List.map_nil, List.sum_cons, List.sum_nil, Y, fl]
        push_cast
        rw [show 0.5 * (l : ℝ) * ((l : ℝ) - 1) * (2 * l + 1) / (2 * l - 1) = (l : ℝ) * ((l : ℝ) - 1) * (2 * l + 1) / (2 * l - 1) / 2 by ring]
        ring
      · simp [hm, h1]
    · by_cases hp : m > 0
      · rcases eq_or_ne m (1) with rfl | h3
        · by_cases h1 : l > 1 + 1 <;> by_cases h2 : l ≥ 1 <;>
          simp only [hm, hp, h1, h2, if_true, if_false, List.map_append, List.map_cons, List.map_nil, List.sum_cons, List.sum_nil, List.sum_append, Y, fl, half_sqrt, half_sqrt_two] <;>
          push_cast <;> ring
        · by_cases h1 : l > m + 1 <;> by_cases h2 : l ≥ m <;>
          simp only [hm, hp, h1, h2, h3, if_true, if_false, List.map_append, List.map_cons, List.map_nil, List.sum_cons, List.sum_nil, List.sum_append, Y, fl, half_sqrt, half_sqrt_two] <;>
          push_cast <;> ring
      · rcases eq_or_ne m (-1) with rfl | h3
        · by_cases h1 : -l ≤ -1 <;> by_cases h2 : -l < -1 - 1 <;>
          simp only [hm, hp, h1, h2, if_true, if_false, List.map_append, List.map_cons, List.map_nil, List.sum_cons, List.sum_nil, List.sum_append, Y, fl, half_sqrt, half_sqrt_two] <;>
          push_cast <;> ring
        · by_cases h1 : -l ≤ m <;> by_cases h2 : -l < m - 1 <;>
          simp only [hm, hp, h1, h2, h3, if_true, if_false, List.map_append, List.map_cons, List.map_nil, List.sum_cons, List.sum_nil, List.sum_append, Y, fl, half_sqrt, half_sqrt_two] <;>
          push_cast <;> ring
  have hy : (prime l m x y z).2.1 = gSum (gY l m) x y z := by
    unfold prime gY gSum
    by_cases hm : m = 0
    · by_cases h1 : l > 1
      · simp only [hm, h1, if_true, List.map_cons, List.map_nil, List.sum_cons, List.sum_nil, Y, fl]
        push_cast
        rw [show 0.5 * (l : ℝ) * ((l : ℝ) - 1) * (2 * l + 1) / (2 * l - 1) = (l : ℝ) * ((l : ℝ) - 1) * (2 * l + 1) / (2 * l - 1) / 2 by ring]
        ring
      · simp [hm, h1]
    · by_cases hp : m > 0
      · rcases eq_or_ne m (1) with rfl | h3
        · by_cases h1 : l > 1 + 1 <;> by_cases h2 : l ≥ 1 <;>
          simp only [hm, hp, h1, h2, if_true, if_false, List.map_append, List.map_cons, List.map_nil, List.sum_cons, List.sum_nil, List.sum_append, Y, fl, half_sqrt, half_sqrt_two] <;>
          push_cast <;> ring
        · by_cases h1 : l > m + 1 <;> by_cases h2 : l ≥ m <;>
          simp only [hm, hp, h1, h2, h3, if_true, if_false, List.map_append, List.map_cons, List.map_nil, List.sum_cons, List.sum_nil, List.sum_append, Y, fl, half_sqrt, half_sqrt_two] <;>
          push_cast <;> ring
      · rcases eq_or_ne m (-1) with rfl | h3
        · by_cases h1 : -l ≤ -1 <;> by_cases h2 : -l < -1 - 1 <;>
          simp only [hm, hp, h1, h2, if_true, if_false, List.map_append, List.map_cons, List.map_nil, List.sum_cons, List.sum_nil, List.sum_append, Y, fl, half_sqrt, half_sqrt_two] <;>
          push_cast <;> ring
        · by_cases h1 : -l ≤ m <;> by_cases h2 : -l < m - 1 <;>
          simp only [hm, hp, h1, h2, h3, if_true, if_false, List.map_append, List.map_cons, List.map_nil, List.sum_cons, List.sum_nil, List.sum_append, Y, fl, half_sqrt, half_sqrt_two] <;>
          push_cast <;> ring
  exact Prod.ext hx (Prod.ext hy hz)

/-- With the corner case of a negative index. -/
def zPoly (lm : ℤ) : Poly := if lm < 0 then [] else yPoly lm.toNat

theorem flatZ_eq (lm : ℤ) : flatZ lm x y z = (zPoly lm).eval x y z / 10 ^ 18 := by
  unfold flatZ zPoly
  by_cases h : lm < 0
  · simp [h]
  · simp only [h, if_false, flat_eq]

/-- The combination with the square roots replaced by their approximations, in units of 1e-38. -/
def gPoly (ts : List GTerm) : Poly := ts.foldr (fun t acc => add (scale (t.1 * sq20 t.2.1) (zPoly t.2.2)) acc) []

def gErr (ts : List GTerm) : Nat := (ts.map fun t => t.1.natAbs * size (zPoly t.2.2)).sum

def gOk (ts : List GTerm) (d : Poly) : Bool :=
  ts.all (fun t => sq20Ok t.2.1) && decide (size (add (gPoly ts) (scale (-10 ^ 20) d)) + gErr ts ≤ 3 * 10 ^ 24)

set_option maxRecDepth 20000 in
theorem grad_all : ∀ lm < 49, (gOk (gX (lOf lm) (mOf lm)) (ddx (yPoly lm)) && gOk (gY (lOf lm) (mOf lm)) (ddy (yPoly lm)) && gOk (gZ (lOf lm) (mOf lm)) (ddz (yPoly lm))) = true := by
  decide +kernel

theorem gSum_err (h : x ^ 2 + y ^ 2 + z ^ 2 = 1) (ts : List GTerm) (ok : ts.all (fun t => sq20Ok t.2.1) = true) :
    |gSum ts x y z - (gPoly ts).eval x y z / 10 ^ 38| ≤ (gErr ts : ℝ) / 10 ^ 38 := by
  induction ts with
  | nil => simp [gSum, gPoly, gErr]
  | cons t ts ih =>
    simp only [List.all_cons, Bool.and_eq_true] at ok
    have i := ih ok.2
    have e := sq20_spec t.2.1 ok.1
    have b := eval_le h (zPoly t.2.2)
    have e1 : gSum (t :: ts) x y z = (t.1 : ℝ) * Real.sqrt (t.2.1 : ℝ) * ((zPoly t.2.2).eval x y z / 10 ^ 18) + gSum ts x y z := by
      simp only [gSum, List.map_cons, List.sum_cons, flatZ_eq]
    have e2 : (gPoly (t :: ts)).eval x y z = (t.1 * sq20 t.2.1) * (zPoly t.2.2).eval x y z + (gPoly ts).eval x y z := by
      simp only [gPoly, List.foldr_cons, eval_add, eval_scale]; push_cast; rfl
    have e3 : ((gErr (t :: ts) : Nat) : ℝ) = |(t.1 : ℝ)| * size (zPoly t.2.2) + gErr ts := by
      simp only [gErr, List.map_cons, List.sum_cons]; push_cast; rw [Nat.cast_natAbs, Int.cast_abs]
    rw [e1, e2, e3]
    generalize (zPoly t.2.2).eval x y z = p at *
    generalize ((size (zPoly t.2.2) : Nat) : ℝ) = n at *
    generalize (gPoly ts).eval x y z = g at *
    generalize gSum ts x y z = s at *
    have : (t.1 : ℝ) * Real.sqrt (t.2.1 : ℝ) * (p / 10 ^ 18) + s - ((t.1 * sq20 t.2.1) * p + g) / 10 ^ 38
        = (t.1 : ℝ) * ((Real.sqrt (t.2.1 : ℝ) - (sq20 t.2.1 : ℝ) / 10 ^ 20) * p / 10 ^ 18) + (s - g / 10 ^ 38) := by ring
    rw [this]
    refine (abs_add_le _ _).trans ?_
    rw [add_div]
    refine add_le_add ?_ i
    rw [abs_mul, mul_div_assoc |(t.1 : ℝ)|]
    refine mul_le_mul_of_nonneg_left ?_ (abs_nonneg (t.1 : ℝ))
    rw [abs_div, abs_mul, abs_of_pos (show (0 : ℝ) < 10 ^ 18 by norm_num)]
    calc _ ≤ (1 / 10 ^ 20) * n / 10 ^ 18 := by gcongr
      _ = n / 10 ^ 38 := by ring

theorem gOk_spec (h : x ^ 2 + y ^ 2 + z ^ 2 = 1) (ts : List GTerm) (d : Poly) (ok : gOk ts d = true) :
    |gSum ts x y z - d.eval x y z / 10 ^ 18| ≤ 3 / 10 ^ 14 := by
  unfold gOk at ok
  rw [Bool.and_eq_true, decide_eq_true_eq] at ok
  have a := gSum_err h ts ok.1
  have b := eval_le h (add (gPoly ts) (scale (-10 ^ 20) d))
  have c : ((size (add (gPoly ts) (scale (-10 ^ 20) d)) : Nat) : ℝ) + (gErr ts : ℝ) ≤ 3 * 10 ^ 24 := by exact_mod_cast ok.2
  rw [eval_add, eval_scale, show (((-10 ^ 20 : ℤ)) : ℝ) = -10 ^ 20 by norm_num] at b
  generalize ((size (add (gPoly ts) (scale (-10 ^ 20) d)) : Nat) : ℝ) = n at *
  generalize (gErr ts : ℝ) = e at *
  generalize (gPoly ts).eval x y z = g at *
  have : gSum ts x y z - d.eval x y z / 10 ^ 18 = (gSum ts x y z - g / 10 ^ 38) + (g + -10 ^ 20 * d.eval x y z) / 10 ^ 38 := by ring
  rw [this]
  refine (abs_add_le _ _).trans ?_
  rw [abs_div, abs_of_pos (show (0 : ℝ) < 10 ^ 38 by norm_num)]
  calc _ ≤ e / 10 ^ 38 + n / 10 ^ 38 := by gcongr
    _ = (n + e) / 10 ^ 38 := by ring
    _ ≤ 3 * 10 ^ 24 / 10 ^ 38 := by gcongr
    _ = _ := by norm_num

/-! ### The product -/

theorem termsPoly_eval (h : x ^ 2 + y ^ 2 + z ^ 2 = 1) (L : Nat) (ts : List Term) (ok : ts.all termOk = true) :
    (termsPoly L ts).eval x y z = 10 ^ 36 * (ts.map fun t => (t.coeff : ℝ) * Y t.l t.m x y z).sum := by
  induction ts with
  | nil => simp [termsPoly]
  | cons t ts ih =>
    simp only [List.all_cons, Bool.and_eq_true] at ok
    have i := ih ok.2
    have o := ok.1
    unfold termOk at o
    rw [Bool.and_eq_true, beq_iff_eq, decide_eq_true_eq] at o
    have e : (c18 t : ℝ) = (t.coeff : ℝ) * 10 ^ 18 := by
      have : ((c18 t : ℤ) : ℚ) = t.coeff * 10 ^ 18 := (Rat.den_eq_one_iff _).1 o.1
      exact_mod_cast congrArg (fun q : ℚ => (q : ℝ)) this
    have e1 : (termsPoly L (t :: ts)).eval x y z = c18 t * (yPoly (flatOf t)).eval x y z + (termsPoly L ts).eval x y z := by
      simp only [termsPoly, List.foldr_cons, eval_add, eval_scale, eval_rrPow h]
    have e2 : Y t.l t.m x y z = (yPoly (flatOf t)).eval x y z / 10 ^ 18 := by
      unfold Y flatZ
      rw [if_neg (by omega), flat_eq]; rfl
    rw [e1, i, List.map_cons, List.sum_cons, e2, e]
    ring

theorem prod_spec (h : x ^ 2 + y ^ 2 + z ^ 2 = 1) (lm1 lm2 : Nat) (h1 : lm1 < 16) (h2 : lm2 < 16) :
    |flat lm1 x y z * flat lm2 x y z - ((expand lm1 lm2).map fun t => (t.coeff : ℝ) * Y t.l t.m x y z).sum| ≤ 2 / 10 ^ 15 := by
  have ok := prod_all lm1 h1 lm2 h2
  unfold prodOk at ok
  rw [Bool.and_eq_true, decide_eq_true_eq] at ok
  have b := eval_le h (add (mul (yPoly lm1) (yPoly lm2)) (scale (-1) (termsPoly (lOf lm1 + lOf lm2) (expand lm1 lm2))))
  have c : ((size (add (mul (yPoly lm1) (yPoly lm2)) (scale (-1) (termsPoly (lOf lm1 + lOf lm2) (expand lm1 lm2)))) : Nat) : ℝ) ≤ 2 * 10 ^ 21 := by exact_mod_cast ok.2
  have d := b.trans c
  rw [eval_add, eval_mul, eval_scale, termsPoly_eval h _ _ ok.1] at d
  rw [flat_eq, flat_eq]
  generalize ((expand lm1 lm2).map fun t => (t.coeff : ℝ) * Y t.l t.m x y z).sum = s at *
  have : (yPoly lm1).eval x y z / 10 ^ 18 * ((yPoly lm2).eval x y z / 10 ^ 18) - s
      = ((yPoly lm1).eval x y z * (yPoly lm2).eval x y z + ((-1 : ℤ) : ℝ) * (10 ^ 36 * s)) / 10 ^ 36 := by push_cast; ring
  rw [this, abs_div, abs_of_pos (show (0 : ℝ) < 10 ^ 36 by norm_num)]
  calc _ ≤ 2 * 10 ^ 21 / 10 ^ 36 := by gcongr
    _ = (2 : ℝ) / 10 ^ 15 := by norm_num

end Jdftx.Ylm
