import Verif.Lemmas.ExactXLoad
import Verif.Lemmas.Mat3
import Verif.Props.SpaceGroup
import Mathlib.Analysis.SpecialFunctions.Complex.Circle
import Mathlib.Analysis.Calculus.Deriv.Add
import Mathlib.Analysis.Calculus.Deriv.Mul
import Mathlib.Analysis.Calculus.Deriv.Pow

/-!
# Lemmas for C97: pairs of k-points
-/
namespace Jdftx.EXX
open M3
noncomputable section

theorem cis_exp (x : ℝ) : Euler.cis x = Complex.exp (x * Complex.I) := by
  rw [Complex.exp_mul_I, ← Complex.ofReal_cos, ← Complex.ofReal_sin]
  apply Complex.ext <;> simp only [Euler.cis, Complex.add_re, Complex.add_im, Complex.mul_re, Complex.mul_im, Complex.ofReal_re, Complex.ofReal_im, Complex.I_re, Complex.I_im] <;> ring

theorem cis_add (x y : ℝ) : Euler.cis (x + y) = Euler.cis x * Euler.cis y := by
  rw [cis_exp, cis_exp, cis_exp, ← Complex.exp_add]; push_cast; ring_nf

theorem star_cis (x : ℝ) : star (Euler.cis x) = Euler.cis (-x) := by
  apply Complex.ext <;> simp [Euler.cis]

theorem cis_zero : Euler.cis 0 = 1 := by apply Complex.ext <;> simp [Euler.cis]

theorem cis_int (m : Int) : Euler.cis (2 * Real.pi * m) = 1 := by
  rw [cis_exp]
  have := Complex.exp_int_mul_two_pi_mul_I m
  rw [← this]; push_cast; ring_nf

theorem star_cis_mul (x : ℝ) : star (Euler.cis x) * Euler.cis x = 1 := by rw [star_cis, ← cis_add, neg_add_cancel, cis_zero]

theorem conjIf_mul (s : Int) (a b : ℂ) : conjIf s (a * b) = conjIf s a * conjIf s b := by
  unfold conjIf; split_ifs
  · rw [StarMul.star_mul, mul_comm]
  · rfl

theorem conjIf_star (s : Int) (a : ℂ) : conjIf s (star a) = star (conjIf s a) := by
  unfold conjIf; split_ifs <;> rfl

theorem conjIf_add (s : Int) (a b : ℂ) : conjIf s (a + b) = conjIf s a + conjIf s b := by
  unfold conjIf; split_ifs
  · exact star_add _ _
  · rfl

theorem conjIf_real (s : Int) (x : ℝ) : conjIf s (x : ℂ) = x := by
  unfold conjIf; split_ifs
  · exact Complex.conj_ofReal x
  · rfl

theorem conjIf_re (s : Int) (z : ℂ) : (conjIf s z).re = z.re := by
  unfold conjIf; split_ifs
  · exact Complex.conj_re z
  · rfl

theorem conjIf_one (z : ℂ) : conjIf 1 z = z := by simp [conjIf]

theorem conjIf_zero (s : Int) : conjIf s 0 = 0 := by simp [conjIf]

theorem conjIf_eq_zero (s : Int) (z : ℂ) : conjIf s z = 0 ↔ z = 0 := by
  unfold conjIf; split_ifs <;> simp

theorem conjIf_conjIf (s t : Int) (hs : s = 1 ∨ s = -1) (ht : t = 1 ∨ t = -1) (z : ℂ) : conjIf t (conjIf s z) = conjIf (s * t) z := by
  rcases hs with rfl | rfl <;> rcases ht with rfl | rfl <;> simp [conjIf]

theorem conjIf_finsum {α : Type} (s : Int) (f : α → ℂ) : conjIf s (∑ᶠ a, f a) = ∑ᶠ a, conjIf s (f a) := by
  unfold conjIf; split_ifs
  · exact AddEquiv.map_finsum (starAddEquiv (R := ℂ)) f
  · rfl

theorem star_finsum {α : Type} (f : α → ℂ) : star (∑ᶠ a, f a) = ∑ᶠ a, star (f a) := AddEquiv.map_finsum (starAddEquiv (R := ℂ)) f

theorem finsum_const_mul {α : Type} (z : ℂ) (f : α → ℂ) : ∑ᶠ a, f a * z = (∑ᶠ a, f a) * z := by
  have := smul_finsum z f
  simp only [smul_eq_mul] at this
  rw [mul_comm, this]
  simp only [mul_comm]

/-! ### Plane waves under a symmetry -/

/-- The image of a plane wave. -/
def fwd (t : KT) (g : V3 Int) : V3 Int := fun i => t.invert * mulVM g t.op.rot i
def bwd (t : KT) (h : V3 Int) : V3 Int := fun i => t.invert * mulVM h t.op.inv.rot i

theorem mulVM_smul {K : Type} [CommRing K] (s : K) (v : V3 K) (m : Mat K) : mulVM (fun i => s * v i) m = fun i => s * mulVM v m i := by
  funext j; simp only [mulVM]; ring

theorem mulVM_add {K : Type} [CommRing K] (v w : V3 K) (m : Mat K) : mulVM (fun i => v i + w i) m = fun i => mulVM v m i + mulVM w m i := by
  funext j; simp only [mulVM]; ring

theorem mulVM_mul {K : Type} [CommRing K] (v : V3 K) (m n : Mat K) : mulVM (mulVM v m) n = mulVM v (mulMM m n) := by
  funext j; simp only [mulVM, mulMM]; ring

theorem mulVM_one {K : Type} [CommRing K] (v : V3 K) : mulVM v (diag 1 1 1) = v := by
  funext j; fin_cases j <;> simp [mulVM, diag, vec]

theorem inv_rot (t : KT) (h : M3.det t.op.rot = 1 ∨ M3.det t.op.rot = -1) : mulMM t.op.rot t.op.inv.rot = diag 1 1 1 ∧ mulMM t.op.inv.rot t.op.rot = diag 1 1 1 := by
  have e := mulMM_inv t.op.rot h
  rw [← mulMM_eq, ← mulMM_eq, ← diag_one] at e
  exact ⟨Matrix.of.injective e.1, Matrix.of.injective e.2⟩

theorem sq_sign (s : Int) (h : s = 1 ∨ s = -1) : s * s = 1 := by rcases h with rfl | rfl <;> rfl

theorem bwd_fwd {K : V3 ℝ → ℝ} {t : KT} (h : Symmetry K t) (g : V3 Int) : bwd t (fwd t g) = g := by
  unfold bwd fwd
  rw [mulVM_smul, mulVM_mul, (inv_rot t h.det).1, mulVM_one]
  funext i
  show t.invert * (t.invert * g i) = g i
  rw [← mul_assoc, sq_sign _ h.sign, one_mul]

theorem fwd_bwd {K : V3 ℝ → ℝ} {t : KT} (h : Symmetry K t) (g : V3 Int) : fwd t (bwd t g) = g := by
  unfold bwd fwd
  rw [mulVM_smul, mulVM_mul, (inv_rot t h.det).2, mulVM_one]
  funext i
  show t.invert * (t.invert * g i) = g i
  rw [← mul_assoc, sq_sign _ h.sign, one_mul]

theorem fwd_add (t : KT) (g h : V3 Int) : fwd t (fun i => g i + h i) = fun i => fwd t g i + fwd t h i := by
  unfold fwd
  rw [mulVM_add]
  funext i
  ring

/-- The permutation of plane waves. -/
def perm {K : V3 ℝ → ℝ} {t : KT} (h : Symmetry K t) : V3 Int ≃ V3 Int := ⟨fwd t, bwd t, bwd_fwd h, fwd_bwd h⟩

theorem act_c {K : V3 ℝ → ℝ} {t : KT} (h : Symmetry K t) (p : Orb) (g : V3 Int) :
    (p.act t).c (fwd t g) = conjIf t.invert (p.c g * Euler.cis (2 * Real.pi * dot (fun i => (g i : ℝ) + p.k i) t.op.a)) := by
  show conjIf t.invert (p.c (bwd t (fwd t g)) * Euler.cis (2 * Real.pi * dot (fun i => (bwd t (fwd t g) i : ℝ) + p.k i) t.op.a)) = _
  rw [bwd_fwd h]

theorem cast_mulVM (g : V3 Int) (m : Mat Int) (i : Fin 3) : ((mulVM g m i : Int) : ℝ) = mulVM (fun i => (g i : ℝ)) (castMat m) i := by
  simp only [mulVM, castMat]; push_cast; ring

theorem fwd_cast (t : KT) (g : V3 Int) (i : Fin 3) : ((fwd t g i : Int) : ℝ) = t.invert * t.op.applyRecip (fun i => (g i : ℝ)) i := by
  unfold fwd Op.applyRecip
  push_cast
  rw [cast_mulVM]

theorem dot_add {K : Type} [CommRing K] (a b c : V3 K) : dot (fun i => a i + b i) c = dot a c + dot b c := by simp only [dot]; ring
theorem dot_add_right {K : Type} [CommRing K] (a b c : V3 K) : dot a (fun i => b i + c i) = dot a b + dot a c := by simp only [dot]; ring

theorem pairDensity_act {K : V3 ℝ → ℝ} {t : KT} (h : Symmetry K t) (p q : Orb) (G : V3 Int) :
    pairDensity (p.act t) (q.act t) (fwd t G) = conjIf t.invert (pairDensity p q G * Euler.cis (2 * Real.pi * dot (fun i => (G i : ℝ) + q.k i - p.k i) t.op.a)) := by
  unfold pairDensity
  rw [← finsum_comp_equiv (perm h), ← finsum_const_mul, conjIf_finsum]
  refine finsum_congr fun g => ?_
  show star ((p.act t).c (fwd t g)) * (q.act t).c (fun i => fwd t g i + fwd t G i) = _
  rw [← fwd_add, act_c h, act_c h, ← conjIf_star, ← conjIf_mul]
  congr 1
  rw [StarMul.star_mul, star_cis]
  have e : Euler.cis (2 * Real.pi * dot (fun i => (G i : ℝ) + q.k i - p.k i) t.op.a) =
      Euler.cis (-(2 * Real.pi * dot (fun i => (g i : ℝ) + p.k i) t.op.a)) * Euler.cis (2 * Real.pi * dot (fun i => ((g i + G i : Int) : ℝ) + q.k i) t.op.a) := by
    rw [← cis_add]
    congr 1
    simp only [dot]; push_cast; ring
  rw [e]
  ring

theorem applyRecip_smul (op : Op ℝ) (s : ℝ) (v : V3 ℝ) : op.applyRecip (fun i => s * v i) = fun i => s * op.applyRecip v i := mulVM_smul s v _

theorem kernel_act {K : V3 ℝ → ℝ} {t : KT} (h : Symmetry K t) (hK : EvenKernel K) (v : V3 ℝ) : K (fun i => t.invert * t.op.applyRecip v i) = K v := by
  rcases h.sign with e | e <;> rw [e]
  · push_cast; simp only [one_mul]; exact h.kernel v
  · push_cast; simp only [neg_mul, one_mul]; rw [hK]; exact h.kernel v

theorem form_act {K : V3 ℝ → ℝ} {t : KT} (h : Symmetry K t) (hK : EvenKernel K) (p d q : Orb) (hd : d.k = q.k) :
    form K (p.act t) (d.act t) (q.act t) = conjIf t.invert (form K p d q) := by
  unfold form
  rw [← finsum_comp_equiv (perm h), conjIf_finsum]
  refine finsum_congr fun G => ?_
  show (K (fun i => (q.act t).k i - (p.act t).k i + ((fwd t G i : Int) : ℝ)) : ℂ) * (star (pairDensity (p.act t) (d.act t) (fwd t G)) * pairDensity (p.act t) (q.act t) (fwd t G)) = _
  rw [pairDensity_act h, pairDensity_act h, hd, conjIf_mul _ (K _ : ℂ), conjIf_real]
  have hk : (fun i => (q.act t).k i - (p.act t).k i + ((fwd t G i : Int) : ℝ)) = fun i => t.invert * t.op.applyRecip (fun i => q.k i - p.k i + G i) i := by
    funext i
    rw [fwd_cast]
    show t.invert * t.op.applyRecip q.k i - t.invert * t.op.applyRecip p.k i + _ = _
    simp only [Op.applyRecip, mulVM]
    ring
  rw [hk, kernel_act h hK, ← conjIf_star, ← conjIf_mul]
  congr 2
  rw [StarMul.star_mul]
  linear_combination (star (pairDensity p d G) * pairDensity p q G) * star_cis_mul (2 * Real.pi * dot (fun i => (G i : ℝ) + q.k i - p.k i) t.op.a)

/-! ### Composition -/

theorem orb_ext {p q : Orb} (h1 : p.k = q.k) (h2 : p.c = q.c) : p = q := by cases p; cases q; simp_all

theorem det_mul' (m n : Mat Int) : M3.det (mulMM m n) = M3.det m * M3.det n := by
  rw [det_eq, det_eq, det_eq, mulMM_eq, Matrix.det_mul]

/-- Symmetries are closed under composition. -/
theorem sym_mul {K : V3 ℝ → ℝ} {s t : KT} (hs : Symmetry K s) (ht : Symmetry K t) : Symmetry K ⟨s.op.mul t.op, s.invert * t.invert⟩ := by
  refine ⟨?_, ?_, fun v => ?_⟩
  · show M3.det (mulMM s.op.rot t.op.rot) = 1 ∨ M3.det (mulMM s.op.rot t.op.rot) = -1
    rw [det_mul']
    rcases hs.det with a | a <;> rcases ht.det with b | b <;> rw [a, b] <;> decide
  · rcases hs.sign with a | a <;> rcases ht.sign with b | b <;> simp [a, b]
  · rw [C34_compose_recip, ht.kernel, hs.kernel]

theorem sym_inv {K : V3 ℝ → ℝ} {t : KT} (ht : Symmetry K t) : Symmetry K ⟨t.op.inv, t.invert⟩ := by
  refine ⟨?_, ht.sign, fun v => ?_⟩
  · show M3.det t.op.inv.rot = 1 ∨ M3.det t.op.inv.rot = -1
    rw [C34_inverse_det t.op ht.det]; exact ht.det
  · have := ht.kernel (t.op.inv.applyRecip v)
    rw [← C34_compose_recip, (C34_inverse t.op ht.det).2] at this
    rw [← this]
    congr 1
    funext i
    show mulVM v (castMat (diag 1 1 1)) i = v i
    fin_cases i <;> simp [mulVM, castMat, diag, vec]

theorem act_mul {K : V3 ℝ → ℝ} {s t : KT} (hs : Symmetry K s) (ht : Symmetry K t) (p : Orb) : (p.act s).act t = p.act ⟨s.op.mul t.op, s.invert * t.invert⟩ := by
  apply orb_ext
  · funext i
    show (t.invert : ℝ) * t.op.applyRecip (fun i => s.invert * s.op.applyRecip p.k i) i = ((s.invert * t.invert : Int) : ℝ) * (s.op.mul t.op).applyRecip p.k i
    rw [applyRecip_smul, C34_compose_recip]
    push_cast; ring
  · have hst := sym_mul hs ht
    funext h
    -- the plane wave it comes from
    obtain ⟨g, rfl⟩ : ∃ g, h = fwd t (fwd s g) := ⟨bwd s (bwd t h), by rw [fwd_bwd hs, fwd_bwd ht]⟩
    have e : fwd t (fwd s g) = fwd ⟨s.op.mul t.op, s.invert * t.invert⟩ g := by
      unfold fwd
      rw [mulVM_smul, mulVM_mul]
      funext i
      show t.invert * (s.invert * mulVM g (mulMM s.op.rot t.op.rot) i) = s.invert * t.invert * mulVM g (mulMM s.op.rot t.op.rot) i
      ring
    rw [act_c ht, act_c hs, e, act_c hst]
    show _ = conjIf (s.invert * t.invert) (p.c g * Euler.cis (2 * Real.pi * dot (fun i => (g i : ℝ) + p.k i) fun i => mulMV (castMat s.op.rot) t.op.a i + s.op.a i))
    rw [← conjIf_conjIf _ _ hs.sign ht.sign]
    congr 1
    -- phases
    have hd : dot (fun i => ((fwd s g i : Int) : ℝ) + (p.act s).k i) t.op.a = s.invert * dot (fun i => (g i : ℝ) + p.k i) (fun i => mulMV (castMat s.op.rot) t.op.a i) := by
      have : (fun i => ((fwd s g i : Int) : ℝ) + (p.act s).k i) = fun i => s.invert * s.op.applyRecip (fun i => (g i : ℝ) + p.k i) i := by
        funext i
        rw [fwd_cast]
        show _ + s.invert * s.op.applyRecip p.k i = _
        simp only [Op.applyRecip, mulVM]; ring
      rw [this]
      simp only [dot, Op.applyRecip, mulVM, mulMV]; ring
    rw [hd, dot_add_right, mul_add, cis_add]
    generalize dot (fun i => (g i : ℝ) + p.k i) (fun i => mulMV (castMat s.op.rot) t.op.a i) = x
    have hx : Euler.cis (2 * Real.pi * (s.invert * x)) = conjIf s.invert (Euler.cis (2 * Real.pi * x)) := by
      rcases hs.sign with e | e <;> rw [e]
      · simp [conjIf]
      · rw [show conjIf (-1) (Euler.cis (2 * Real.pi * x)) = star (Euler.cis (2 * Real.pi * x)) by simp [conjIf], star_cis]
        congr 1; push_cast; ring
    rw [hx, ← conjIf_mul]
    congr 1; ring

theorem act_one (p : Orb) : p.act ⟨Op.one, 1⟩ = p := by
  have hi : (Op.one : Op ℝ).inv.rot = diag 1 1 1 := by
    show smul (M3.det (diag 1 1 1)) (adjugate (diag 1 1 1)) = diag 1 1 1
    decide
  apply orb_ext
  · funext i
    show ((1 : Int) : ℝ) * mulVM p.k (castMat (diag 1 1 1)) i = p.k i
    fin_cases i <;> simp [mulVM, castMat, diag, vec]
  · funext h
    show conjIf 1 (p.c (fun i => 1 * mulVM h (Op.one : Op ℝ).inv.rot i) * Euler.cis (2 * Real.pi * dot _ (vec 0 0 0))) = p.c h
    rw [hi, mulVM_one, conjIf_one]
    simp [dot, vec, cis_zero]

theorem act_inv {K : V3 ℝ → ℝ} {t : KT} (h : Symmetry K t) (p : Orb) : (p.act t).act ⟨t.op.inv, t.invert⟩ = p := by
  rw [act_mul h (sym_inv h)]
  show p.act ⟨t.op.mul t.op.inv, t.invert * t.invert⟩ = p
  rw [(C34_inverse t.op h.det).1, sq_sign _ h.sign, act_one]

/-- A pair of mesh points as a pair with a reduced point. -/
theorem form_net {K : V3 ℝ → ℝ} {s t : KT} (hs : Symmetry K s) (ht : Symmetry K t) (hK : EvenKernel K) (p d q : Orb) (hd : d.k = q.k) :
    (form K (p.act s) (d.act t) (q.act t)).re = (form K (p.act (s.net t)) d q).re := by
  have hd' : (d.act t).k = (q.act t).k := by
    funext i; show (t.invert : ℝ) * t.op.applyRecip d.k i = t.invert * t.op.applyRecip q.k i; rw [hd]
  have h := form_act (sym_inv ht) hK (p.act s) (d.act t) (q.act t) hd'
  rw [act_inv ht, act_inv ht, act_mul hs (sym_inv ht)] at h
  have := congrArg Complex.re h
  rw [conjIf_re] at this
  exact this.symm

theorem pairDensity_phase (z : ℂ) (p p' q : Orb) (hc : ∀ g, p'.c g = z * p.c g) (G : V3 Int) : pairDensity p' q G = star z * pairDensity p q G := by
  unfold pairDensity
  rw [mul_comm, ← finsum_const_mul]
  refine finsum_congr fun g => ?_
  rw [hc, StarMul.star_mul]; ring

theorem form_phase (K : V3 ℝ → ℝ) (z : ℂ) (hz : star z * z = 1) (p p' d q : Orb) (hk : p'.k = p.k) (hc : ∀ g, p'.c g = z * p.c g) : form K p' d q = form K p d q := by
  unfold form
  refine finsum_congr fun G => ?_
  rw [pairDensity_phase z p p' d hc, pairDensity_phase z p p' q hc, hk, StarMul.star_mul, star_star]
  linear_combination ((K (fun i => q.k i - p.k i + G i) : ℂ) * (star (pairDensity p d G) * pairDensity p q G)) * hz

/-- Translations by lattice vectors do not matter. -/
theorem form_lattice (K : V3 ℝ → ℝ) (s t : KT) (h1 : s.invert = t.invert) (h2 : s.op.rot = t.op.rot) (h3 : SameMod s.op.a t.op.a) (p d q : Orb) : form K (p.act s) d q = form K (p.act t) d q := by
  obtain ⟨m, hm⟩ := h3
  set z := conjIf t.invert (Euler.cis (2 * Real.pi * dot p.k fun i => (m i : ℝ))) with hz
  refine form_phase K z ?_ (p.act t) (p.act s) d q ?_ fun h => ?_
  · rw [hz, ← conjIf_star, ← conjIf_mul, star_cis_mul]
    simpa using conjIf_real t.invert 1
  · funext i
    show (s.invert : ℝ) * mulVM p.k (castMat s.op.rot) i = t.invert * mulVM p.k (castMat t.op.rot) i
    rw [h1, h2]
  · have hi : s.op.inv.rot = t.op.inv.rot := by
      show smul (M3.det s.op.rot) (adjugate s.op.rot) = smul (M3.det t.op.rot) (adjugate t.op.rot)
      rw [h2]
    show conjIf s.invert (p.c (bwd s h) * Euler.cis (2 * Real.pi * dot (fun i => (bwd s h i : ℝ) + p.k i) s.op.a)) = z * conjIf t.invert (p.c (bwd t h) * Euler.cis (2 * Real.pi * dot (fun i => (bwd t h i : ℝ) + p.k i) t.op.a))
    have hb : bwd s h = bwd t h := by unfold bwd; rw [h1, hi]
    rw [hb, h1, hz, ← conjIf_mul]
    congr 1
    generalize bwd t h = g
    have ha : s.op.a = fun i => t.op.a i + m i := funext hm
    have e : 2 * Real.pi * dot (fun i => (g i : ℝ) + p.k i) s.op.a =
        2 * Real.pi * dot p.k (fun i => (m i : ℝ)) + 2 * Real.pi * dot (fun i => (g i : ℝ) + p.k i) t.op.a + 2 * Real.pi * ((dot g m : Int) : ℝ) := by
      rw [ha]; simp only [dot]; push_cast; ring
    rw [e, cis_add, cis_add, cis_int]
    ring

/-! ### Sums over pairs -/

/-- The sum over a list of transforms with multiplicities. -/
def wsum (f : KT → ℝ) (l : List (KT × Nat)) : ℝ := (l.map fun p => (p.2 : ℝ) * f p.1).sum

theorem addUnique_sum (thr : ℝ) (f : KT → ℝ) (l : List (KT × Nat)) (t : KT) (h : ∀ p ∈ l, p.1.same thr t → f p.1 = f t) :
    wsum f (addUnique thr l t) = wsum f l + f t := by
  induction l with
  | nil => simp [addUnique, wsum]
  | cons p l ih =>
    obtain ⟨s, m⟩ := p
    unfold addUnique
    by_cases hs : s.same thr t
    · rw [if_pos hs]
      have := h (s, m) (List.mem_cons_self) hs
      simp only [wsum, List.map_cons, List.sum_cons] at this ⊢
      push_cast
      rw [this]; ring
    · rw [if_neg hs]
      have := ih fun p hp => h p (List.mem_cons_of_mem _ hp)
      simp only [wsum, List.map_cons, List.sum_cons] at this ⊢
      rw [this]; ring

theorem addUnique_mem (thr : ℝ) (l : List (KT × Nat)) (t : KT) (p : KT × Nat) (h : p ∈ addUnique thr l t) : p.1 = t ∨ ∃ p' ∈ l, p'.1 = p.1 := by
  induction l with
  | nil => simp [addUnique] at h; exact Or.inl (by rw [h])
  | cons x l ih =>
    obtain ⟨s, m⟩ := x
    unfold addUnique at h
    by_cases hs : s.same thr t
    · rw [if_pos hs] at h
      rcases List.mem_cons.1 h with h | h
      · exact Or.inr ⟨(s, m), List.mem_cons_self, by rw [h]⟩
      · exact Or.inr ⟨p, List.mem_cons_of_mem _ h, rfl⟩
    · rw [if_neg hs] at h
      rcases List.mem_cons.1 h with h | h
      · exact Or.inr ⟨(s, m), List.mem_cons_self, by rw [h]⟩
      · rcases ih h with h | ⟨p', h1, h2⟩
        · exact Or.inl h
        · exact Or.inr ⟨p', List.mem_cons_of_mem _ h1, h2⟩

/-- One pass over some pairs of mesh points. -/
def pass (m : Kmesh) (thr : ℝ) (choice : Nat → Nat) (L : List (Nat × Nat)) (tr : Pairs) : Pairs :=
  L.foldl (fun tr p => fun a b => if a = m.iReduced p.1 ∧ b = m.iReduced p.2 then addUnique thr (tr a b) ((m.pick choice p.1).net (m.pick choice p.2)) else tr a b) tr

/-- All transforms come from pairs of mesh points. -/
def FromMesh (m : Kmesh) (choice : Nat → Nat) (tr : Pairs) : Prop :=
  ∀ a b, ∀ p ∈ tr a b, ∃ ik < m.n, ∃ jk < m.n, p.1 = (m.pick choice ik).net (m.pick choice jk)

theorem pass_mesh (m : Kmesh) (thr : ℝ) (choice : Nat → Nat) (L : List (Nat × Nat)) (hL : ∀ p ∈ L, p.1 < m.n ∧ p.2 < m.n) (tr : Pairs) (h : FromMesh m choice tr) :
    FromMesh m choice (pass m thr choice L tr) := by
  induction L generalizing tr with
  | nil => exact h
  | cons p L ih =>
    refine ih (fun q hq => hL q (List.mem_cons_of_mem _ hq)) _ fun a b x hx => ?_
    simp only [] at hx
    split_ifs at hx with hc
    · rcases addUnique_mem _ _ _ _ hx with e | ⟨y, hy, e⟩
      · exact ⟨p.1, (hL p List.mem_cons_self).1, p.2, (hL p List.mem_cons_self).2, e⟩
      · rw [← e]; exact h a b y hy
    · exact h a b x hx

theorem pass_sum (m : Kmesh) (thr : ℝ) (choice : Nat → Nat) (Q : Nat) (hQ : ∀ ik < m.n, m.iReduced ik < Q) (f : Nat → Nat → KT → ℝ)
    (hf : ∀ ik < m.n, ∀ jk < m.n, ∀ ik' < m.n, ∀ jk' < m.n, ((m.pick choice ik).net (m.pick choice jk)).same thr ((m.pick choice ik').net (m.pick choice jk')) →
      ∀ a b, f a b ((m.pick choice ik).net (m.pick choice jk)) = f a b ((m.pick choice ik').net (m.pick choice jk')))
    (L : List (Nat × Nat)) (hL : ∀ p ∈ L, p.1 < m.n ∧ p.2 < m.n) (tr : Pairs) (h : FromMesh m choice tr) :
    ∑ a ∈ Finset.range Q, ∑ b ∈ Finset.range Q, wsum (f a b) (pass m thr choice L tr a b) =
      (∑ a ∈ Finset.range Q, ∑ b ∈ Finset.range Q, wsum (f a b) (tr a b)) +
        (L.map fun p => f (m.iReduced p.1) (m.iReduced p.2) ((m.pick choice p.1).net (m.pick choice p.2))).sum := by
  induction L generalizing tr with
  | nil => simp [pass]
  | cons p L ih =>
    obtain ⟨hp1, hp2⟩ := hL p List.mem_cons_self
    have hL' : ∀ q ∈ L, q.1 < m.n ∧ q.2 < m.n := fun q hq => hL q (List.mem_cons_of_mem _ hq)
    have h1 : FromMesh m choice (fun a b => if a = m.iReduced p.1 ∧ b = m.iReduced p.2 then addUnique thr (tr a b) ((m.pick choice p.1).net (m.pick choice p.2)) else tr a b) :=
      pass_mesh m thr choice [p] (fun q hq => by rw [List.mem_singleton] at hq; rw [hq]; exact ⟨hp1, hp2⟩) tr h
    have h2 := ih hL' _ h1
    show ∑ a ∈ Finset.range Q, ∑ b ∈ Finset.range Q, wsum (f a b) (pass m thr choice L _ a b) = _
    rw [h2, List.map_cons, List.sum_cons, ← add_assoc]
    congr 1
    -- one pair
    have h3 : ∀ a b, wsum (f a b) (if a = m.iReduced p.1 ∧ b = m.iReduced p.2 then addUnique thr (tr a b) ((m.pick choice p.1).net (m.pick choice p.2)) else tr a b) =
        wsum (f a b) (tr a b) + if a = m.iReduced p.1 then (if b = m.iReduced p.2 then f a b ((m.pick choice p.1).net (m.pick choice p.2)) else 0) else 0 := by
      intro a b
      by_cases ha : a = m.iReduced p.1
      · by_cases hb : b = m.iReduced p.2
        · rw [if_pos ⟨ha, hb⟩, if_pos ha, if_pos hb, addUnique_sum]
          intro x hx hs
          obtain ⟨ik, hik, jk, hjk, e⟩ := h a b x hx
          rw [e] at hs ⊢
          exact hf ik hik jk hjk p.1 hp1 p.2 hp2 hs a b
        · rw [if_neg (fun hc => hb hc.2), if_pos ha, if_neg hb, add_zero]
      · rw [if_neg (fun hc => ha hc.1), if_neg ha, add_zero]
    simp only [h3, Finset.sum_add_distrib]
    congr 1
    rw [Finset.sum_eq_single (m.iReduced p.1) (fun a _ ha => by simp [ha]) (fun hn => absurd (Finset.mem_range.2 (hQ _ hp1)) hn)]
    simp only [if_true]
    rw [Finset.sum_eq_single (m.iReduced p.2) (fun a _ ha => by simp [ha]) (fun hn => absurd (Finset.mem_range.2 (hQ _ hp2)) hn)]
    simp

theorem list_range_sum (k : Nat) (g : Nat → ℝ) : ((List.range k).map g).sum = ∑ i ∈ Finset.range k, g i := by
  induction k with
  | zero => simp
  | succ k ih => rw [List.range_succ, List.map_append, List.sum_append, ih, Finset.sum_range_succ]; simp

theorem flatMap_sum (n : Nat) (g : Nat → Nat → ℝ) : (((List.range n).flatMap fun ik => (List.range n).map fun jk => (ik, jk)).map fun p => g p.1 p.2).sum = ∑ ik ∈ Finset.range n, ∑ jk ∈ Finset.range n, g ik jk := by
  have : ∀ l' : List Nat, ((l'.flatMap fun ik => (List.range n).map fun jk => (ik, jk)).map fun p => g p.1 p.2).sum = (l'.map fun ik => ∑ jk ∈ Finset.range n, g ik jk).sum := by
    intro l'
    induction l' with
    | nil => simp
    | cons x l' ih =>
      rw [List.flatMap_cons, List.map_append, List.sum_append, ih, List.map_cons, List.sum_cons, List.map_map, ← list_range_sum n fun jk => g x jk]
      rfl
  rw [this, list_range_sum]

end
end Jdftx.EXX
