import Verif.Lemmas.CoulombKernels

/-!
# Lemmas for C91: derivatives with respect to strain
-/
namespace Jdftx.CoulK
noncomputable section
open M3 Ewald Real Filter Topology

/-- The Cartesian wave vector with lattice components `v`. -/
def wave (R : Mat ℝ) (v : V3 ℝ) : V3 ℝ := mulVM v (Basis.G R)

theorem wave_R (R : Mat ℝ) (hR : det R ≠ 0) (v : V3 ℝ) : mulVM (wave R v) R = fun k => 2 * π * v k := by
  have h : det R * (1 / det R) = 1 := by field_simp
  funext k
  have e : mulVM (wave R v) R k = 2 * π * v k * (det R * (1 / det R)) := by
    simp only [wave, mulVM, Basis.G, Basis.inv, smul]
    generalize 1 / det R = w
    match k with
    | 0 => simp only [adjugate, ofCols, cross, row, vec, det, box, dot]; ring
    | 1 => simp only [adjugate, ofCols, cross, row, vec, det, box, dot]; ring
    | 2 => simp only [adjugate, ofCols, cross, row, vec, det, box, dot]; ring
  rw [e, h, mul_one]

theorem mulVM_dot (w : V3 ℝ) (R : Mat ℝ) (j : Fin 3) : mulVM w R j = dot w (column R j) := by
  simp only [mulVM, dot, column, vec]; ring

theorem wave_isWave (R : Mat ℝ) (hR : det R ≠ 0) (v : V3 ℝ) : IsWave R v (wave R v) := fun j => by
  rw [← mulVM_dot, wave_R R hR]

theorem wave_unique (R : Mat ℝ) (hR : det R ≠ 0) (v w : V3 ℝ) (h : IsWave R v w) : w = wave R v := by
  refine mulVM_inj R hR _ _ (funext fun j => ?_)
  rw [mulVM_dot, h j, wave_R R hR]

theorem gsq_eq (R : Mat ℝ) (v : V3 ℝ) : gsq (Basis.GGT R) v = dot (wave R v) (wave R v) := by
  simp only [gsq, Basis.GGT, wave, metricLengthSq, mulMM, transpose, dot, mulVM]; ring

theorem dot_self_nonneg (w : V3 ℝ) : 0 ≤ dot w w := by
  unfold dot; nlinarith [mul_self_nonneg (w 0), mul_self_nonneg (w 1), mul_self_nonneg (w 2)]

theorem dot_self_zero (w : V3 ℝ) (h : dot w w = 0) : w = 0 := by
  have q0 := mul_self_nonneg (w 0)
  have q1 := mul_self_nonneg (w 1)
  have q2 := mul_self_nonneg (w 2)
  unfold dot at h
  funext i
  match i with
  | 0 => exact mul_self_eq_zero.1 (by linarith)
  | 1 => exact mul_self_eq_zero.1 (by linarith)
  | 2 => exact mul_self_eq_zero.1 (by linarith)

theorem wave_zero_iff (R : Mat ℝ) (hR : det R ≠ 0) (v : V3 ℝ) : wave R v = 0 ↔ v = 0 := by
  constructor
  · intro h
    have := wave_R R hR v
    rw [h] at this
    funext k
    have hk := congrFun this k
    simp only [mulVM, Pi.zero_apply] at hk
    have h2 : 2 * π * v k = 0 := by rw [← hk]; ring
    rcases mul_eq_zero.1 h2 with h | h
    · exact absurd h (by positivity)
    · exact h
  · intro h; subst h; funext k; simp [wave, mulVM]

theorem gsq_nonneg (R : Mat ℝ) (v : V3 ℝ) : 0 ≤ gsq (Basis.GGT R) v := by rw [gsq_eq]; exact dot_self_nonneg _

theorem gsq_zero_iff (R : Mat ℝ) (hR : det R ≠ 0) (v : V3 ℝ) : gsq (Basis.GGT R) v = 0 ↔ v = 0 := by
  rw [gsq_eq]
  constructor
  · intro h; exact (wave_zero_iff R hR v).1 (dot_self_zero _ h)
  · intro h; rw [(wave_zero_iff R hR v).2 h]; simp [dot]

theorem wave_differentiable (R : Mat ℝ) (hR : det R ≠ 0) (e : Mat ℝ) (v : V3 ℝ) (k : Fin 3) :
    DifferentiableAt ℝ (fun t => wave (strained R e t) v k) 0 := by
  have hd : DifferentiableAt ℝ (fun t => det (strained R e t)) 0 := (det_deriv R e).differentiableAt
  have h0 : det (strained R e 0) ≠ 0 := by rw [strained_zero]; exact hR
  have hadj : ∀ i j, DifferentiableAt ℝ (fun t => adjugate (strained R e t) i j) 0 := by
    intro i j
    match i, j with
    | 0, 0 | 0, 1 | 0, 2 | 1, 0 | 1, 1 | 1, 2 | 2, 0 | 2, 1 | 2, 2 =>
      simp only [adjugate, ofCols, cross, row, vec, strained]; fun_prop
  have hinv : ∀ i j, DifferentiableAt ℝ (fun t => Basis.inv (strained R e t) i j) 0 := by
    intro i j
    simp only [Basis.inv, smul]
    exact (hadj i j).mul ((differentiableAt_const 1).div hd h0)
  simp only [wave, mulVM, Basis.G, smul]
  have a := hinv 0 k
  have b := hinv 1 k
  have c := hinv 2 k
  fun_prop

theorem det_near (R : Mat ℝ) (hR : det R ≠ 0) (e : Mat ℝ) : ∀ᶠ t in 𝓝 (0 : ℝ), det (strained R e t) ≠ 0 := by
  have h0 : det (strained R e 0) ≠ 0 := by rw [strained_zero]; exact hR
  exact (det_deriv R e).continuousAt.eventually_ne h0

theorem wave_deriv (R : Mat ℝ) (hR : det R ≠ 0) (e : Mat ℝ) (v : V3 ℝ) (k : Fin 3) :
    HasDerivAt (fun t => wave (strained R e t) v k) (-mulVM (wave R v) e k) 0 := by
  have hd := fun k => (wave_differentiable R hR e v k).hasDerivAt
  have hc : HasDerivAt (fun t => wave (strained R e t) v k + t * mulVM (wave (strained R e t) v) e k)
      (deriv (fun t => wave (strained R e t) v k) 0 + mulVM (wave R v) e k) 0 := by
    have hm : HasDerivAt (fun t => mulVM (wave (strained R e t) v) e k)
        (mulVM (fun k => deriv (fun t => wave (strained R e t) v k) 0) e k) 0 := by
      simp only [mulVM]
      exact ((((hd 0).mul_const (e 0 k)).const_add 0).add ((hd 1).mul_const (e 1 k))).add ((hd 2).mul_const (e 2 k)) |>.congr_deriv (by ring)
    refine ((hd k).add ((hasDerivAt_id (0 : ℝ)).mul hm)).congr_deriv ?_
    simp [strained_zero]
  have hev : (fun t => wave (strained R e t) v k + t * mulVM (wave (strained R e t) v) e k) =ᶠ[𝓝 0] fun _ => wave R v k := by
    filter_upwards [det_near R hR e] with t ht
    have h1 := wave_R R hR v
    have h2 := wave_R (strained R e t) ht v
    have h3 : mulVM (fun k => wave (strained R e t) v k + t * mulVM (wave (strained R e t) v) e k) R = mulVM (wave R v) R := by
      rw [h1, ← h2]
      funext j
      simp only [mulVM, strained]; ring
    exact congrFun (mulVM_inj R hR _ _ h3) k
  have := hc.unique ((hasDerivAt_const (0 : ℝ) (wave R v k)).congr_of_eventuallyEq hev)
  exact (hd k).congr_deriv (by linarith)

theorem gsq_deriv (R : Mat ℝ) (hR : det R ≠ 0) (e : Mat ℝ) (v : V3 ℝ) :
    HasDerivAt (fun t => gsq (Basis.GGT (strained R e t)) v) (-(2 * contract (outer (wave R v) (wave R v)) e)) 0 := by
  simp only [gsq_eq, dot]
  have h := fun k => wave_deriv R hR e v k
  refine ((((h 0).mul (h 0)).add ((h 1).mul (h 1))).add ((h 2).mul (h 2))).congr_deriv ?_
  simp only [strained_zero, contract_eq, outer, mulVM]; ring

/-- A function of the squared length of the wave vector. -/
theorem radial_deriv (R : Mat ℝ) (hR : det R ≠ 0) (e : Mat ℝ) (v : V3 ℝ) (f : ℝ → ℝ) (f' : ℝ) (hf : HasDerivAt f f' (gsq (Basis.GGT R) v)) :
    HasDerivAt (fun t => f (gsq (Basis.GGT (strained R e t)) v)) (-(2 * f') * contract (outer (wave R v) (wave R v)) e) 0 := by
  have h := gsq_deriv R hR e v
  have hf' : HasDerivAt f f' (gsq (Basis.GGT (strained R e 0)) v) := by rw [strained_zero]; exact hf
  exact (hf'.comp 0 h).congr_deriv (by ring)

theorem contract_scale (s : ℝ) (m e : Mat ℝ) : contract (scale s m) e = s * contract m e := by
  simp only [contract_eq, scale]; ring

theorem contract_sum {ι : Type*} (s : Finset ι) (f : ι → Mat ℝ) (e : Mat ℝ) :
    contract (fun a b => ∑ i ∈ s, f i a b) e = ∑ i ∈ s, contract (f i) e := by
  simp only [contract_eq, Finset.sum_mul, ← Finset.sum_add_distrib]

/-- Contraction after transforming to Cartesian coordinates. -/
def cart (G m : Mat ℝ) : Mat ℝ := mulMM (mulMM (transpose G) m) G

theorem cart_outer (R : Mat ℝ) (v : V3 ℝ) : cart (Basis.G R) (outer v v) = outer (wave R v) (wave R v) := by
  funext i j
  simp only [cart, mulMM, transpose, outer, wave, mulVM]; ring

theorem cart_scale (G m : Mat ℝ) (s : ℝ) : cart G (scale s m) = scale s (cart G m) := by
  funext i j
  simp only [cart, mulMM, scale]; ring

theorem cart_add (G m n : Mat ℝ) : cart G (fun i j => m i j + n i j) = fun i j => cart G m i j + cart G n i j := by
  funext i j
  simp only [cart, mulMM]; ring

theorem cart_sum {ι : Type*} (G : Mat ℝ) (s : Finset ι) (f : ι → Mat ℝ) :
    cart G (fun a b => ∑ i ∈ s, f i a b) = fun a b => ∑ i ∈ s, cart G (f i) a b := by
  classical
  induction s using Finset.induction_on with
  | empty => funext a b; simp [cart, mulMM]
  | insert x s hx ih =>
    simp only [Finset.sum_insert hx]
    rw [cart_add, ih]

/-- From each entry to the sum over the half-space. -/
theorem latticeGradient_deriv (R : Mat ℝ) (hR : det R ≠ 0) (e : Mat ℝ) (S : Box.Size) (K : ℝ → (Fin 3 → Int) → ℝ)
    (grad : (Fin 3 → Int) → Mat ℝ) (X Y : Nat → ℂ)
    (h : ∀ iG, HasDerivAt (fun t => K t iG) (contract (cart (Basis.G R) (grad iG)) e) 0) :
    HasDerivAt (fun t => ∑ i ∈ Finset.range (Box.nG S), halfWeight S (Box.hStart S i) *
      (starRingEnd ℂ (X i) * applyKernel S (K t) Y i).re) (contract (latticeGradient R S grad X Y) e / |det R|) 0 := by
  have hd : |det R| ≠ 0 := abs_ne_zero.2 hR
  have e1 : contract (latticeGradient R S grad X Y) e / |det R| = ∑ i ∈ Finset.range (Box.nG S),
      halfWeight S (Box.hStart S i) * (starRingEnd ℂ (X i) * Y i).re * contract (cart (Basis.G R) (grad (ofIV (Box.hStart S i)))) e := by
    have : latticeGradient R S grad X Y = scale |det R| (cart (Basis.G R) (fun a b => ∑ i ∈ Finset.range (Box.nG S),
      scale (halfWeight S (Box.hStart S i) * (starRingEnd ℂ (X i) * Y i).re) (grad (ofIV (Box.hStart S i))) a b)) := rfl
    rw [this, contract_scale, cart_sum, contract_sum]
    simp only [cart_scale, contract_scale]
    field_simp
  rw [e1]
  refine HasDerivAt.fun_sum fun i _ => ?_
  have hre : ∀ t, halfWeight S (Box.hStart S i) * (starRingEnd ℂ (X i) * applyKernel S (K t) Y i).re
      = halfWeight S (Box.hStart S i) * (starRingEnd ℂ (X i) * Y i).re * K t (ofIV (Box.hStart S i)) := by
    intro t
    rw [applyKernel, ← mul_assoc, Complex.re_mul_ofReal]; ring
  simp only [hre]
  exact (h _).const_mul _

/-! ### Slab -/

/-- Lattice coordinates of the truncated direction. -/
def unit (i : Fin 3) : V3 ℝ := fun k => if k = i then 1 else 0

theorem gsq_unit (M : Mat ℝ) (i : Fin 3) : gsq M (unit i) = M i i := by
  match i with | 0 | 1 | 2 => simp [gsq, metricLengthSq, unit]

theorem wave_split (R : Mat ℝ) (i : Fin 3) (v : V3 ℝ) : wave R v = fun k => wave R (plane i v) k + v i * wave R (unit i) k := by
  funext k
  match i with | 0 | 1 | 2 => simp [wave, mulVM, plane, unit]; try ring

theorem len_sq (v : V3 ℝ) : len v * len v = dot v v := mul_self_sqrt (dot_self_nonneg v)

theorem column_ne (R : Mat ℝ) (hR : det R ≠ 0) (i : Fin 3) : 0 < dot (column R i) (column R i) := by
  refine lt_of_le_of_ne (dot_self_nonneg _) fun h => hR ?_
  have hz := dot_self_zero _ h.symm
  have h0 := congrFun hz 0
  have h1 := congrFun hz 1
  have h2 := congrFun hz 2
  simp only [column, vec, Pi.zero_apply] at h0 h1 h2
  match i with
  | 0 | 1 | 2 => simp only [det, box, dot, cross, row, vec, h0, h1, h2]; ring

theorem len_pos (R : Mat ℝ) (hR : det R ≠ 0) (i : Fin 3) : 0 < len (column R i) := sqrt_pos.2 (column_ne R hR i)

theorem length_eq (v : V3 ℝ) : Basis.length v = len v := rfl

/-- With a perpendicular truncated direction, its reciprocal vector is parallel to it. -/
theorem wave_unit (R : Mat ℝ) (hR : det R ≠ 0) (i : Fin 3) (hp : Perp R i) :
    wave R (unit i) = fun k => 2 * π / dot (column R i) (column R i) * column R i k := by
  have hc := (column_ne R hR i).ne'
  refine (wave_unique R hR _ _ fun j => ?_).symm
  have e : dot (fun k => 2 * π / dot (column R i) (column R i) * column R i k) (column R j)
      = 2 * π / dot (column R i) (column R i) * dot (column R i) (column R j) := by simp only [dot]; ring
  rw [e]
  by_cases hj : j = i
  · subst hj; simp only [unit, if_true]; field_simp
  · rw [hp j hj]; simp [unit, hj]

theorem plane_perp (R : Mat ℝ) (hR : det R ≠ 0) (i : Fin 3) (v : V3 ℝ) : dot (wave R (plane i v)) (column R i) = 0 := by
  rw [wave_isWave R hR]; simp [plane]

theorem gsq_split (R : Mat ℝ) (hR : det R ≠ 0) (i : Fin 3) (hp : Perp R i) (v : V3 ℝ) :
    gsq (Basis.GGT R) v - Basis.GGT R i i * v i * v i = gsq (Basis.GGT R) (plane i v) := by
  have h := plane_perp R hR i v
  have hu := wave_unit R hR i hp
  have hcross : dot (wave R (plane i v)) (wave R (unit i)) = 0 := by
    have : dot (wave R (plane i v)) (wave R (unit i)) = 2 * π / dot (column R i) (column R i) * dot (wave R (plane i v)) (column R i) := by
      rw [hu]; simp only [dot]; ring
    rw [this, h, mul_zero]
  rw [← gsq_unit (Basis.GGT R) i]
  simp only [gsq_eq]
  have e : dot (wave R v) (wave R v) = dot (wave R (plane i v)) (wave R (plane i v)) + 2 * v i * dot (wave R (plane i v)) (wave R (unit i))
      + v i * v i * dot (wave R (unit i)) (wave R (unit i)) := by
    rw [wave_split R i v]; simp only [dot]; ring
  rw [e, hcross]; ring

theorem GGT_ii (R : Mat ℝ) (hR : det R ≠ 0) (i : Fin 3) (hp : Perp R i) : Basis.GGT R i i = (2 * π / len (column R i)) ^ 2 := by
  have hl := (len_pos R hR i).ne'
  have hc := (column_ne R hR i).ne'
  rw [← gsq_unit (Basis.GGT R) i, gsq_eq, wave_unit R hR i hp]
  have e : dot (fun k => 2 * π / dot (column R i) (column R i) * column R i k) (fun k => 2 * π / dot (column R i) (column R i) * column R i k)
    = (2 * π / dot (column R i) (column R i)) ^ 2 * dot (column R i) (column R i) := by simp only [dot]; ring
  rw [e, ← len_sq]
  field_simp

theorem zz_unit (R : Mat ℝ) (hR : det R ≠ 0) (i : Fin 3) (hp : Perp R i) :
    outer (wave R (unit i)) (wave R (unit i)) = scale (Basis.GGT R i i) (zHatOuter R i) := by
  have hl := (len_pos R hR i).ne'
  funext a b
  rw [GGT_ii R hR i hp, wave_unit R hR i hp, ← len_sq]
  simp only [outer, scale, zHatOuter, length_eq]
  field_simp

/-- The in-plane wave vector and the truncated direction do not mix. -/
theorem keep_cross (R : Mat ℝ) (hR : det R ≠ 0) (e : Mat ℝ) (i : Fin 3) (hp : Perp R i) (hk : KeepsPerp R e i) (v : V3 ℝ) :
    contract (outer (wave R (plane i v)) (wave R (unit i))) e + contract (outer (wave R (unit i)) (wave R (plane i v))) e = 0 := by
  let s : V3 ℝ := fun k => mulMV e (column R i) k + mulVM (column R i) e k
  have hs : ∀ j, j ≠ i → dot s (column R j) = 0 := by
    intro j hj
    have h := hk j hj
    have h2 : HasDerivAt (fun t => dot (column (strained R e t) i) (column (strained R e t) j)) (dot s (column R j)) 0 := by
      have hq : ∀ t, dot (column (strained R e t) i) (column (strained R e t) j) = dot (column R i) (column R j) + t * dot s (column R j)
          + t ^ 2 * dot (mulMV e (column R i)) (mulMV e (column R j)) := by
        intro t; simp only [s, strained, dot, column, vec, mulMV, mulVM]; ring
      simp only [hq]
      have h := hasDerivAt_id (0 : ℝ)
      exact (((h.mul_const _).const_add _).add ((h.pow 2).mul_const _)).congr_deriv (by simp)
    exact h2.unique h
  have hpar : s = wave R (fun k => dot s (column R i) / (2 * π) * unit i k) := by
    refine wave_unique R hR _ _ fun j => ?_
    by_cases hj : j = i
    · subst hj; have := pi_pos.ne'; simp only [unit, if_true]; field_simp
    · rw [hs j hj]; simp [unit, hj]
  have hpar2 : s = fun k => dot s (column R i) / (2 * π) * wave R (unit i) k := by
    funext k
    refine (congrFun hpar k).trans ?_
    simp only [wave, mulVM]; ring
  have hz : dot (wave R (plane i v)) s = 0 := by
    rw [hpar2]
    have : dot (wave R (plane i v)) (fun k => dot s (column R i) / (2 * π) * wave R (unit i) k)
        = dot s (column R i) / (2 * π) * (2 * π / dot (column R i) (column R i)) * dot (wave R (plane i v)) (column R i) := by
      rw [wave_unit R hR i hp]; simp only [dot]; ring
    rw [this, plane_perp R hR, mul_zero]
  have e1 : contract (outer (wave R (plane i v)) (wave R (unit i))) e + contract (outer (wave R (unit i)) (wave R (plane i v))) e
      = 2 * π / dot (column R i) (column R i) * dot (wave R (plane i v)) s := by
    rw [wave_unit R hR i hp]
    simp only [contract_eq, outer, s, dot, mulMV, mulVM]; ring
  rw [e1, hz, mul_zero]

/-- Derivative of the squared in-plane wave vector. -/
theorem dplane_deriv (R : Mat ℝ) (hR : det R ≠ 0) (e : Mat ℝ) (i : Fin 3) (hp : Perp R i) (hk : KeepsPerp R e i) (v : V3 ℝ) :
    HasDerivAt (fun t => gsq (Basis.GGT (strained R e t)) v - Basis.GGT (strained R e t) i i * v i * v i)
      (-(2 * contract (outer (wave R (plane i v)) (wave R (plane i v))) e)) 0 := by
  have h1 := gsq_deriv R hR e v
  have h2 := gsq_deriv R hR e (unit i)
  simp only [gsq_unit] at h2
  refine (h1.sub ((h2.mul_const (v i)).mul_const (v i))).congr_deriv ?_
  have hc := keep_cross R hR e i hp hk v
  have e1 : contract (outer (wave R v) (wave R v)) e = contract (outer (wave R (plane i v)) (wave R (plane i v))) e
      + v i * (contract (outer (wave R (plane i v)) (wave R (unit i))) e + contract (outer (wave R (unit i)) (wave R (plane i v))) e)
      + v i * v i * contract (outer (wave R (unit i)) (wave R (unit i))) e := by
    rw [wave_split R i v]; simp only [contract_eq, outer]; ring
  rw [e1, hc]; ring

open Classical in
/-- The safe square root of the code. -/
def safe (d : ℝ) : ℝ := if 0 < d then sqrt d else 0

theorem safe_eq {d : ℝ} (h : 0 ≤ d) : safe d = sqrt d := by
  unfold safe
  split
  · rfl
  · rw [le_antisymm (not_lt.1 ‹_›) h, sqrt_zero]

theorem hlfL_eq (R : Mat ℝ) (i : Fin 3) : hlfL R i = 0.5 * len (column R i) := by
  simp only [hlfL, len, mulMM, transpose, dot, column, vec]
  congr 2; ring

theorem exHlfL_eq (R : Mat ℝ) (i : Fin 3) : exHlfL R i = hlfL R i := by rw [hlfL_eq, exHlfL, length_eq]

theorem hlfL_deriv (R : Mat ℝ) (hR : det R ≠ 0) (e : Mat ℝ) (i : Fin 3) :
    HasDerivAt (fun t => hlfL (strained R e t) i) (hlfL R i * contract (zHatOuter R i) e) 0 := by
  have hL : 0 < slabL (⟨R, 0, fun _ => 0, fun _ => 0⟩ : Params) i := by
    have := len_pos R hR i
    have h2 := hlfL_eq R i
    have h3 : hlfL R i = 0.5 * slabL (⟨R, 0, fun _ => 0, fun _ => 0⟩ : Params) i := rfl
    have : slabL (⟨R, 0, fun _ => 0, fun _ => 0⟩ : Params) i = len (column R i) := by linarith
    rw [this]; assumption
  have h := slabL_deriv (⟨R, 0, fun _ => 0, fun _ => 0⟩ : Params) i hL e
  refine (h.const_mul 0.5).congr_deriv ?_
  have : contract (outer (zHat (⟨R, 0, fun _ => 0, fun _ => 0⟩ : Params) i) (zHat (⟨R, 0, fun _ => 0, fun _ => 0⟩ : Params) i)) e = contract (zHatOuter R i) e := rfl
  rw [this, hlfL]
  simp only [slabL, RTR]; ring

/-- The slab kernel for a wave vector that is not zero. -/
def slabK (R : Mat ℝ) (i : Fin 3) (c : ℝ) (v : V3 ℝ) : ℝ :=
  4 * π * ((1 - exp (-(safe (gsq (Basis.GGT R) v - Basis.GGT R i i * v i * v i)) * hlfL R i) * c) / gsq (Basis.GGT R) v)

open Classical in
theorem slabK_deriv (R : Mat ℝ) (hR : det R ≠ 0) (e : Mat ℝ) (i : Fin 3) (hp : Perp R i) (hk : KeepsPerp R e i) (c : ℝ) (v : V3 ℝ) (hv : v ≠ 0) :
    let Gsq := gsq (Basis.GGT R) v
    let Gp := sqrt (gsq (Basis.GGT R) (plane i v))
    let E := exp (-Gp * hlfL R i) * c
    HasDerivAt (fun t => slabK (strained R e t) i c v)
      (4 * π / Gsq * ((2 * (1 - E) / Gsq - E * hlfL R i * (if Gp ≠ 0 then 1 / Gp else 0)) * contract (outer (wave R (plane i v)) (wave R (plane i v))) e
        + (2 * (1 - E) / Gsq * (Basis.GGT R i i * v i * v i) + E * hlfL R i * Gp) * contract (zHatOuter R i) e)) 0 := by
  intro Gsq Gp E
  have hG : Gsq ≠ 0 := fun h => hv ((gsq_zero_iff R hR v).1 h)
  have hsplit := gsq_split R hR i hp v
  have hdG := gsq_deriv R hR e v
  have hdh := hlfL_deriv R hR e i
  have hzz : contract (outer (wave R (unit i)) (wave R (unit i))) e = Basis.GGT R i i * contract (zHatOuter R i) e := by
    rw [zz_unit R hR i hp, contract_scale]
  have hww : contract (outer (wave R v) (wave R v)) e = contract (outer (wave R (plane i v)) (wave R (plane i v))) e
      + v i * v i * (Basis.GGT R i i * contract (zHatOuter R i) e) := by
    have hc := keep_cross R hR e i hp hk v
    rw [← hzz]
    have : contract (outer (wave R v) (wave R v)) e = contract (outer (wave R (plane i v)) (wave R (plane i v))) e
      + v i * (contract (outer (wave R (plane i v)) (wave R (unit i))) e + contract (outer (wave R (unit i)) (wave R (plane i v))) e)
      + v i * v i * contract (outer (wave R (unit i)) (wave R (unit i))) e := by
      rw [wave_split R i v]; simp only [contract_eq, outer]; ring
    rw [this, hc]; ring
  -- the in-plane part
  have hGp : HasDerivAt (fun t => safe (gsq (Basis.GGT (strained R e t)) v - Basis.GGT (strained R e t) i i * v i * v i))
      (-(if Gp ≠ 0 then 1 / Gp else 0) * contract (outer (wave R (plane i v)) (wave R (plane i v))) e) 0 := by
    by_cases hz : plane i v = 0
    · have hvu : v = fun k => v i * unit i k := by
        funext k
        have := congrFun hz k
        simp only [plane, Pi.zero_apply] at this
        by_cases hki : k = i
        · subst hki; simp [unit]
        · simp only [if_neg hki] at this; simp [unit, hki, this]
      have hzero : ∀ M : Mat ℝ, gsq M v - M i i * v i * v i = 0 := by
        intro M
        have : gsq M v = v i * v i * gsq M (unit i) := by
          conv_lhs => rw [hvu]
          simp only [gsq, metricLengthSq]; ring
        rw [this, gsq_unit]; ring
      simp only [hzero]
      refine (hasDerivAt_const _ _).congr_deriv ?_
      rw [hz]
      have : wave R 0 = 0 := (wave_zero_iff R hR 0).2 rfl
      simp [this, contract_eq, outer]
    · have hpos : 0 < gsq (Basis.GGT R) (plane i v) :=
        lt_of_le_of_ne (gsq_nonneg R _) fun h => hz ((gsq_zero_iff R hR _).1 h.symm)
      have hGp0 : Gp ≠ 0 := (sqrt_pos.2 hpos).ne'
      have hd := dplane_deriv R hR e i hp hk v
      have hne : gsq (Basis.GGT (strained R e 0)) v - Basis.GGT (strained R e 0) i i * v i * v i ≠ 0 := by
        rw [strained_zero, hsplit]; exact hpos.ne'
      have hev : (fun t => safe (gsq (Basis.GGT (strained R e t)) v - Basis.GGT (strained R e t) i i * v i * v i))
          =ᶠ[𝓝 0] fun t => sqrt (gsq (Basis.GGT (strained R e t)) v - Basis.GGT (strained R e t) i i * v i * v i) := by
        have h0 : 0 < gsq (Basis.GGT (strained R e 0)) v - Basis.GGT (strained R e 0) i i * v i * v i := by
          rw [strained_zero, hsplit]; exact hpos
        filter_upwards [hd.continuousAt.eventually (lt_mem_nhds h0)] with t ht
        exact safe_eq ht.le
      refine ((hd.sqrt hne).congr_of_eventuallyEq hev).congr_deriv ?_
      rw [strained_zero, hsplit, if_pos hGp0]
      show -(2 * contract _ e) / (2 * Gp) = _
      field_simp
  have hGsq0 : gsq (Basis.GGT (strained R e 0)) v ≠ 0 := by rw [strained_zero]; exact hG
  have hexp := ((hGp.neg.mul hdh).exp.mul_const c).const_sub 1
  refine ((hexp.div hdG hGsq0).const_mul (4 * π)).congr_deriv ?_
  simp only [strained_zero, Pi.mul_apply, Pi.neg_apply]
  have hsafe : safe (gsq (Basis.GGT R) v - Basis.GGT R i i * v i * v i) = Gp := by
    rw [hsplit, safe_eq (gsq_nonneg R _)]
  rw [hsafe, hww]
  have hE : exp (-Gp * hlfL R i) * c = E := rfl
  show 4 * π * ((-(exp (-Gp * hlfL R i) * (_ ) * c) * Gsq - (1 - exp (-Gp * hlfL R i) * c) * _) / Gsq ^ 2) = _
  rw [hE]
  have hmv : ∀ A : ℝ, exp (-Gp * hlfL R i) * A * c = E * A := by intro A; rw [← hE]; ring
  rw [hmv]
  generalize (if Gp ≠ 0 then 1 / Gp else 0) = I
  generalize contract (outer (wave R (plane i v)) (wave R (plane i v))) e = P
  generalize contract (zHatOuter R i) e = Z
  field_simp
  ring

end
end Jdftx.CoulK
