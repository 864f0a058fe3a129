import Verif.Model.Ewald
import Verif.Spec.Ewald
import Verif.Lemmas.Smear
import Verif.Lemmas.WignerSeitz
import Mathlib.Analysis.SpecialFunctions.Sqrt
import Mathlib.Analysis.SpecialFunctions.ExpDeriv
import Mathlib.Analysis.SpecialFunctions.Trigonometric.Deriv
import Mathlib.Analysis.Calculus.Deriv.Abs
import Mathlib.Tactic.FunProp

/-! # Lemmas for C70 -/
namespace Jdftx.Ewald
noncomputable section
open M3 Filter Topology

/-! ## The screened pair interaction -/

theorem pair_deriv (η s : ℝ) (hs : 0 < s) :
    HasDerivAt (fun s => Smear.erfc (η * Real.sqrt s) / Real.sqrt s)
      (-(Smear.erfc (η * Real.sqrt s) / Real.sqrt s + (2 / Real.sqrt Real.pi) * η * Real.exp (-(η * η) * s)) / (2 * s)) s := by
  have hr : 0 < Real.sqrt s := Real.sqrt_pos.2 hs
  have h1 := Real.hasDerivAt_sqrt hs.ne'
  have h2 := (Smear.erfc_deriv (η * Real.sqrt s)).comp s (h1.const_mul η)
  have h3 := h2.div h1 hr.ne'
  refine (h3.congr_deriv ?_)
  have e1 : -(η * Real.sqrt s) ^ 2 = -(η * η) * s := by rw [mul_pow, Real.sq_sqrt hs.le]; ring
  rw [e1]
  simp only [Function.comp]
  have e2 : s = Real.sqrt s ^ 2 := (Real.sq_sqrt hs.le).symm
  generalize Real.exp (-(η * η) * s) = E
  generalize Smear.erfc (η * Real.sqrt s) = C
  generalize Real.sqrt s = r at *
  subst e2
  have hp : Real.sqrt Real.pi ≠ 0 := (Real.sqrt_pos.2 Real.pi_pos).ne'
  field_simp
  ring

open Classical in
/-- Energy of a pair as function of the squared distance. -/
def termE (η Z1 Z2 s : ℝ) : ℝ := if s = 0 then 0 else 0.5 * Z1 * Z2 * Smear.erfc (η * Real.sqrt s) / Real.sqrt s

theorem realE_eq (p : Params) (Z1 Z2 : ℝ) (x : V3 ℝ) : realE p Z1 Z2 x = termE (eta p) Z1 Z2 (WS.lenSq p.R x) := by
  simp only [realE, termE, RTR]
  rw [← WS.metric_lenSq]; rfl

theorem termE_deriv (p : Params) (Z1 Z2 : ℝ) (q : ℝ → ℝ) (q' : ℝ) (h0 : 0 < q 0) (hq : HasDerivAt q q' 0) :
    HasDerivAt (fun t => termE (eta p) Z1 Z2 (q t)) (-(1/4) * minusErByR p Z1 Z2 (q 0) * q') 0 := by
  have h1 := ((pair_deriv (eta p) (q 0) h0).comp 0 hq).const_mul (0.5 * Z1 * Z2)
  have hev : ∀ᶠ t in 𝓝 (0 : ℝ), termE (eta p) Z1 Z2 (q t)
      = 0.5 * Z1 * Z2 * (Smear.erfc (eta p * Real.sqrt (q t)) / Real.sqrt (q t)) := by
    have := hq.continuousAt.eventually_ne h0.ne'
    filter_upwards [this] with t ht
    rw [termE, if_neg ht]; ring
  refine HasDerivAt.congr_of_eventuallyEq (h1.congr_deriv ?_) hev
  simp only [minusErByR]
  have := h0.ne'
  field_simp
  ring

theorem RTR_eq (p : Params) : RTR p = WS.RTR p.R := rfl

theorem realF_dot (p : Params) (Z1 Z2 : ℝ) (x u : V3 ℝ) (h : WS.lenSq p.R x ≠ 0) :
    dot (realF p Z1 Z2 x) u = WS.ip p.R x u * minusErByR p Z1 Z2 (WS.lenSq p.R x) := by
  rw [realF, RTR_eq, WS.metric_lenSq]
  simp only [if_neg h]
  rw [← WS.rtr_dot]
  simp only [dot]; ring

theorem realF_zero (p : Params) (Z1 Z2 : ℝ) (x : V3 ℝ) (h : WS.lenSq p.R x = 0) : realF p Z1 Z2 x = 0 := by
  rw [realF, RTR_eq, WS.metric_lenSq]
  simp only [if_pos h]

theorem realF_neg (p : Params) (Z1 Z2 : ℝ) (x : V3 ℝ) (k : Fin 3) :
    realF p Z2 Z1 (fun k => -x k) k = -realF p Z1 Z2 x k := by
  have e : WS.lenSq p.R (fun k => -x k) = WS.lenSq p.R x := by simp only [WS.lenSq, dot, mulMV]; ring
  by_cases h : WS.lenSq p.R x = 0
  · rw [realF_zero _ _ _ _ h, realF_zero _ _ _ _ (e.trans h)]; simp
  · rw [realF, realF, RTR_eq, WS.metric_lenSq, WS.metric_lenSq]
    simp only [if_neg h, e]
    have hm : minusErByR p Z2 Z1 (WS.lenSq p.R x) = minusErByR p Z1 Z2 (WS.lenSq p.R x) := by
      simp only [minusErByR]; ring
    rw [hm]; simp only [mulMV]; ring

/-! ## Displacements -/

/-- 1 for the displaced atom. -/
def del {n : Nat} (c a : Fin n) : ℝ := if a = c then 1 else 0

theorem displace_eq {n : Nat} (pos : Fin n → V3 ℝ) (c : Fin n) (u : V3 ℝ) (t : ℝ) (a : Fin n) (k : Fin 3) :
    displace pos c u t a k = pos a k + t * (del c a * u k) := by
  simp only [displace, del]; split <;> ring

theorem displace_zero {n : Nat} (pos : Fin n → V3 ℝ) (c : Fin n) (u : V3 ℝ) : displace pos c u 0 = pos := by
  funext a k; rw [displace_eq]; ring

theorem floor_eventually (x v : ℝ) (h : ∀ m : Int, x ≠ m) : ∀ᶠ t in 𝓝 (0 : ℝ), ⌊x + t * v⌋ = ⌊x⌋ := by
  have hc : ContinuousAt (fun t : ℝ => x + t * v) 0 := by fun_prop
  have h1 : (⌊x⌋ : ℝ) < x + 0 * v := by
    have := Int.floor_le x
    have := h ⌊x⌋
    rw [zero_mul, add_zero]
    exact lt_of_le_of_ne ‹_› this.symm
  have h2 : x + 0 * v < ⌊x⌋ + 1 := by rw [zero_mul, add_zero]; exact Int.lt_floor_add_one x
  filter_upwards [hc.eventually (lt_mem_nhds h1), hc.eventually (gt_mem_nhds h2)] with t a b
  rw [Int.floor_eq_iff]
  exact ⟨a.le, b⟩

theorem wrap_displace {n : Nat} (pos : Fin n → V3 ℝ) (c : Fin n) (u : V3 ℝ) (h : OffBoundary pos) :
    ∀ᶠ t in 𝓝 (0 : ℝ), (fun a k => wrap (displace pos c u t a k)) = displace (fun a k => wrap (pos a k)) c u t := by
  have : ∀ a k, ∀ᶠ t in 𝓝 (0 : ℝ), wrap (displace pos c u t a k) = displace (fun a k => wrap (pos a k)) c u t a k := by
    intro a k
    have hx : ∀ m : Int, 0.5 + pos a k ≠ m := fun m e => h a k (m - 1) (by push_cast; norm_num at e ⊢; linarith)
    filter_upwards [floor_eventually (0.5 + pos a k) (del c a * u k) hx] with t ht
    rw [displace_eq, displace_eq]
    simp only [wrap]
    rw [← ht]
    have : 0.5 + (pos a k + t * (del c a * u k)) = 0.5 + pos a k + t * (del c a * u k) := by ring
    rw [this]; ring
  have := eventually_all.2 fun a => eventually_all.2 (this a)
  filter_upwards [this] with t ht
  funext a k; exact ht a k

theorem apart_wrap {n : Nat} (pos : Fin n → V3 ℝ) (f : Fin n → Fin 3 → Int) (h : Apart pos) :
    Apart (fun a k => pos a k - (f a k : ℝ)) := by
  intro a b hab m
  obtain ⟨k, hk⟩ := h a b hab (fun k => m k + f a k - f b k)
  refine ⟨k, fun e => hk ?_⟩
  push_cast; linarith

/-! ## The real-space sum -/

theorem sep_pos (p : Params) (hR : det p.R ≠ 0) {n : Nat} (pos : Fin n → V3 ℝ) (h : Apart pos) (a1 a2 : Fin n) (hne : a1 ≠ a2)
    (iR : Fin 3 → Int) : 0 < WS.lenSq p.R (sep iR (pos a1) (pos a2)) := by
  refine WS.lenSq_pos p.R hR _ fun e => ?_
  obtain ⟨k, hk⟩ := h a1 a2 hne (fun k => -iR k)
  apply hk
  have := congrFun e k
  simp only [sep, toR, Pi.zero_apply] at this
  push_cast; linarith

theorem real_term_deriv (p : Params) (hR : det p.R ≠ 0) {n : Nat} (Z : Fin n → ℝ) (pos : Fin n → V3 ℝ) (h : Apart pos)
    (c : Fin n) (u : V3 ℝ) (a1 a2 : Fin n) (iR : Fin 3 → Int) :
    HasDerivAt (fun t => realE p (Z a1) (Z a2) (sep iR (displace pos c u t a1) (displace pos c u t a2)))
      (-(1/2) * (dot (realF p (Z a1) (Z a2) (sep iR (pos a1) (pos a2))) u * (del c a1 - del c a2))) 0 := by
  by_cases hne : a1 = a2
  · subst hne
    have e : (fun t => realE p (Z a1) (Z a1) (sep iR (displace pos c u t a1) (displace pos c u t a1)))
        = fun _ => realE p (Z a1) (Z a1) (toR iR) := by
      funext t; congr 1; funext k; simp [sep]
    rw [e, sub_self, mul_zero, mul_zero]
    exact hasDerivAt_const _ _
  · have hpos := sep_pos p hR pos h a1 a2 hne iR
    simp only [realE_eq]
    let x := sep iR (pos a1) (pos a2)
    let d := del c a1 - del c a2
    have hq : ∀ t, WS.lenSq p.R (sep iR (displace pos c u t a1) (displace pos c u t a2))
        = WS.lenSq p.R x + t * (2 * d * WS.ip p.R x u) + t ^ 2 * (d ^ 2 * WS.lenSq p.R u) := by
      intro t
      have : sep iR (displace pos c u t a1) (displace pos c u t a2) = fun k => x k - (-(t * d)) * u k := by
        funext k; simp only [sep, displace_eq, x, d]; ring
      rw [this, WS.lenSq_sub]
      simp only [WS.ip, dot]; ring
    have hd : HasDerivAt (fun t => WS.lenSq p.R (sep iR (displace pos c u t a1) (displace pos c u t a2)))
        (2 * d * WS.ip p.R x u) 0 := by
      simp only [hq]
      have := (((hasDerivAt_id (0 : ℝ)).mul_const (2 * d * WS.ip p.R x u)).const_add (WS.lenSq p.R x)).add
        (((hasDerivAt_id (0 : ℝ)).pow 2).mul_const (d ^ 2 * WS.lenSq p.R u))
      refine this.congr_deriv ?_
      simp
    have h0 : WS.lenSq p.R (sep iR (displace pos c u 0 a1) (displace pos c u 0 a2)) = WS.lenSq p.R x := by
      rw [displace_zero]
    have := termE_deriv p (Z a1) (Z a2) _ _ (by rw [h0]; exact hpos) hd
    refine this.congr_deriv ?_
    rw [h0, realF_dot _ _ _ _ _ hpos.ne']
    ring

theorem mem_cells_neg (N : Fin 3 → Nat) (v : Fin 3 → Int) : -v ∈ cells N ↔ v ∈ cells N := by
  simp only [cells, Fintype.mem_piFinset, Finset.mem_Icc, Pi.neg_apply]
  constructor <;> intro h k <;> have := h k <;> omega

theorem sum_cells_neg (N : Fin 3 → Nat) (f : (Fin 3 → Int) → ℝ) : ∑ v ∈ cells N, f (-v) = ∑ v ∈ cells N, f v :=
  Finset.sum_equiv (Equiv.neg _) (fun v => by simp [mem_cells_neg]) (fun v _ => rfl)

theorem realF_swap (p : Params) {n : Nat} (Z : Fin n → ℝ) (pos : Fin n → V3 ℝ) (a b : Fin n) (k : Fin 3) :
    ∑ iR ∈ cells p.Nreal, realF p (Z a) (Z b) (sep iR (pos a) (pos b)) k
      = -∑ iR ∈ cells p.Nreal, realF p (Z b) (Z a) (sep iR (pos b) (pos a)) k := by
  rw [← sum_cells_neg, ← Finset.sum_neg_distrib]
  refine Finset.sum_congr rfl fun iR _ => ?_
  rw [← realF_neg]
  congr 1
  funext k
  simp only [sep, toR, Pi.neg_apply]; push_cast; ring

theorem dot_sum {ι : Type} (s : Finset ι) (f : ι → V3 ℝ) (u : V3 ℝ) :
    ∑ i ∈ s, dot (f i) u = dot (fun k => ∑ i ∈ s, f i k) u := by
  simp only [dot, Finset.sum_add_distrib, Finset.sum_mul]

/-- Force on atom `a` from the real-space sum. -/
def realForce (p : Params) {n : Nat} (Z : Fin n → ℝ) (pos : Fin n → V3 ℝ) (a : Fin n) : V3 ℝ := fun k =>
  ∑ a2, ∑ iR ∈ cells p.Nreal, realF p (Z a) (Z a2) (sep iR (pos a) (pos a2)) k

theorem real_sum_deriv (p : Params) (hR : det p.R ≠ 0) {n : Nat} (Z : Fin n → ℝ) (pos : Fin n → V3 ℝ) (h : Apart pos)
    (c : Fin n) (u : V3 ℝ) :
    HasDerivAt (fun t => ∑ a2, ∑ a1, ∑ iR ∈ cells p.Nreal,
        realE p (Z a1) (Z a2) (sep iR (displace pos c u t a1) (displace pos c u t a2)))
      (-dot (realForce p Z pos c) u) 0 := by
  have h1 := HasDerivAt.fun_sum fun a2 (_ : a2 ∈ (Finset.univ : Finset (Fin n))) =>
    HasDerivAt.fun_sum fun a1 (_ : a1 ∈ (Finset.univ : Finset (Fin n))) =>
      HasDerivAt.fun_sum fun iR (_ : iR ∈ cells p.Nreal) => real_term_deriv p hR Z pos h c u a1 a2 iR
  refine h1.congr_deriv ?_
  have e1 : ∀ a1 a2, ∑ iR ∈ cells p.Nreal, -(1/2) * (dot (realF p (Z a1) (Z a2) (sep iR (pos a1) (pos a2))) u * (del c a1 - del c a2))
      = -(1/2) * (del c a1 - del c a2) * dot (fun k => ∑ iR ∈ cells p.Nreal, realF p (Z a1) (Z a2) (sep iR (pos a1) (pos a2)) k) u := by
    intro a1 a2
    rw [← dot_sum, Finset.mul_sum]
    exact Finset.sum_congr rfl fun _ _ => by ring
  simp only [e1]
  let D : Fin n → Fin n → ℝ := fun a1 a2 => dot (fun k => ∑ iR ∈ cells p.Nreal, realF p (Z a1) (Z a2) (sep iR (pos a1) (pos a2)) k) u
  have hD : ∀ a b, D a b = -D b a := by
    intro a b
    simp only [D]
    have : (fun k => ∑ iR ∈ cells p.Nreal, realF p (Z a) (Z b) (sep iR (pos a) (pos b)) k)
        = fun k => -∑ iR ∈ cells p.Nreal, realF p (Z b) (Z a) (sep iR (pos b) (pos a)) k := by
      funext k; exact realF_swap p Z pos a b k
    rw [this]; simp only [dot]; ring
  have e2 : dot (realForce p Z pos c) u = ∑ a2, D c a2 := by
    simp only [D]
    rw [dot_sum]; rfl
  rw [e2]
  have e3 : ∀ a2, ∑ a1, -(1/2) * (del c a1 - del c a2) * D a1 a2 = -(1/2) * D c a2 + (1/2) * del c a2 * ∑ a1, D a1 a2 := by
    intro a2
    have : ∀ a1, -(1/2) * (del c a1 - del c a2) * D a1 a2 = (if a1 = c then -(1/2) * D a1 a2 else 0) + (1/2) * del c a2 * D a1 a2 := by
      intro a1
      have : del c a1 = if a1 = c then 1 else 0 := rfl
      rw [this]; split <;> ring
    simp only [this]
    rw [Finset.sum_add_distrib, Finset.sum_ite_eq' Finset.univ c]
    simp [Finset.mul_sum]
  show ∑ a2, ∑ a1, -(1/2) * (del c a1 - del c a2) * D a1 a2 = -∑ a2, D c a2
  simp only [e3]
  rw [Finset.sum_add_distrib]
  have e4 : ∀ a2, (1/2) * del c a2 * ∑ a1, D a1 a2 = if a2 = c then (1/2) * ∑ a1, D a1 a2 else 0 := by
    intro a2
    have : del c a2 = if a2 = c then 1 else 0 := rfl
    rw [this]; split <;> ring
  simp only [e4]
  rw [Finset.sum_ite_eq' Finset.univ c]
  simp only [Finset.mem_univ, if_true]
  have e5 : ∑ a1, D a1 c = -∑ a1, D c a1 := by
    rw [← Finset.sum_neg_distrib]; exact Finset.sum_congr rfl fun a _ => hD a c
  rw [e5, ← Finset.mul_sum]; ring

theorem realForce_total (p : Params) {n : Nat} (Z : Fin n → ℝ) (pos : Fin n → V3 ℝ) (k : Fin 3) :
    ∑ a, realForce p Z pos a k = 0 := by
  simp only [realForce]
  have h : ∑ a, ∑ a2, ∑ iR ∈ cells p.Nreal, realF p (Z a) (Z a2) (sep iR (pos a) (pos a2)) k
      = -∑ a, ∑ a2, ∑ iR ∈ cells p.Nreal, realF p (Z a) (Z a2) (sep iR (pos a) (pos a2)) k := by
    conv_lhs => rw [Finset.sum_comm]
    rw [← Finset.sum_neg_distrib]
    refine Finset.sum_congr rfl fun a _ => ?_
    rw [← Finset.sum_neg_distrib]
    exact Finset.sum_congr rfl fun b _ => realF_swap p Z pos b a k
  linarith

/-! ## The reciprocal-space sum -/

theorem phase_re_deriv {n : Nat} (pos : Fin n → V3 ℝ) (c : Fin n) (u : V3 ℝ) (iG : Fin 3 → Int) (a : Fin n) :
    HasDerivAt (fun t => (phase iG (displace pos c u t a)).re)
      (2 * Real.pi * dot (toR iG) u * del c a * (phase iG (pos a)).im) 0 ∧
    HasDerivAt (fun t => (phase iG (displace pos c u t a)).im)
      (-(2 * Real.pi * dot (toR iG) u * del c a * (phase iG (pos a)).re)) 0 := by
  have hl : HasDerivAt (fun t => -2 * Real.pi * dot (toR iG) (displace pos c u t a))
      (-2 * Real.pi * (dot (toR iG) u * del c a)) 0 := by
    have e : (fun t => -2 * Real.pi * dot (toR iG) (displace pos c u t a))
        = fun t => -2 * Real.pi * dot (toR iG) (pos a) + t * (-2 * Real.pi * (dot (toR iG) u * del c a)) := by
      funext t; simp only [dot, displace_eq]; ring
    rw [e]
    exact (((hasDerivAt_id (0 : ℝ)).mul_const _).const_add _).congr_deriv (by simp)
  have e0 : dot (toR iG) (displace pos c u 0 a) = dot (toR iG) (pos a) := by rw [displace_zero]
  constructor
  · refine (hl.cos).congr_deriv ?_
    simp only [phase, e0]; ring
  · refine (hl.sin).congr_deriv ?_
    simp only [phase, e0]; ring

theorem SG_re {n : Nat} (Z : Fin n → ℝ) (pos : Fin n → V3 ℝ) (iG : Fin 3 → Int) :
    (SG Z pos iG).re = ∑ a, Z a * (phase iG (pos a)).re ∧ (SG Z pos iG).im = ∑ a, Z a * (phase iG (pos a)).im := by
  constructor
  · rw [SG, Complex.re_sum]; exact Finset.sum_congr rfl fun a _ => by simp
  · rw [SG, Complex.im_sum]; exact Finset.sum_congr rfl fun a _ => by simp

theorem sum_del {n : Nat} (c : Fin n) (f : Fin n → ℝ) : ∑ a, del c a * f a = f c := by
  have : ∀ a, del c a * f a = if a = c then f a else 0 := by intro a; simp only [del]; split <;> ring
  simp only [this]
  rw [Finset.sum_ite_eq' Finset.univ c]; simp

theorem normSq_SG_deriv {n : Nat} (Z : Fin n → ℝ) (pos : Fin n → V3 ℝ) (c : Fin n) (u : V3 ℝ) (iG : Fin 3 → Int) :
    HasDerivAt (fun t => Complex.normSq (SG Z (displace pos c u t) iG))
      (2 * (Z c * 2 * Real.pi * ((starRingEnd ℂ) (SG Z pos iG) * phase iG (pos c)).im) * dot (toR iG) u) 0 := by
  have hre : HasDerivAt (fun t => (SG Z (displace pos c u t) iG).re)
      (2 * Real.pi * dot (toR iG) u * Z c * (phase iG (pos c)).im) 0 := by
    simp only [(SG_re Z _ iG).1]
    refine (HasDerivAt.fun_sum fun a _ => ((phase_re_deriv pos c u iG a).1).const_mul (Z a)).congr_deriv ?_
    rw [← sum_del c fun a => 2 * Real.pi * dot (toR iG) u * Z a * (phase iG (pos a)).im]
    exact Finset.sum_congr rfl fun a _ => by ring
  have him : HasDerivAt (fun t => (SG Z (displace pos c u t) iG).im)
      (-(2 * Real.pi * dot (toR iG) u * Z c * (phase iG (pos c)).re)) 0 := by
    simp only [(SG_re Z _ iG).2]
    refine (HasDerivAt.fun_sum fun a _ => ((phase_re_deriv pos c u iG a).2).const_mul (Z a)).congr_deriv ?_
    rw [← sum_del c fun a => 2 * Real.pi * dot (toR iG) u * Z a * (phase iG (pos a)).re, ← Finset.sum_neg_distrib]
    exact Finset.sum_congr rfl fun a _ => by ring
  simp only [Complex.normSq_apply]
  refine ((hre.mul hre).add (him.mul him)).congr_deriv ?_
  rw [displace_zero]
  simp only [Complex.mul_im, Complex.conj_re, Complex.conj_im]
  ring

theorem recip_term_deriv (p : Params) {n : Nat} (Z : Fin n → ℝ) (pos : Fin n → V3 ℝ) (c : Fin n) (u : V3 ℝ) (iG : Fin 3 → Int) :
    HasDerivAt (fun t => recipE p Z (displace pos c u t) iG) (-dot (recipF p Z pos iG c) u) 0 := by
  by_cases h : Gsq p iG = 0
  · simp only [recipE, recipF, if_pos h]
    refine (hasDerivAt_const _ _).congr_deriv ?_
    simp [dot]
  · simp only [recipE, recipF, if_neg h]
    refine ((normSq_SG_deriv Z pos c u iG).const_mul _).congr_deriv ?_
    simp only [dot]
    ring

theorem recip_total (p : Params) {n : Nat} (Z : Fin n → ℝ) (pos : Fin n → V3 ℝ) (iG : Fin 3 → Int) (k : Fin 3) :
    ∑ a, recipF p Z pos iG a k = 0 := by
  by_cases h : Gsq p iG = 0
  · simp [recipF, if_pos h]
  · simp only [recipF, if_neg h]
    have e : ∀ a, -((eG p iG * Z a * 2 * Real.pi * ((starRingEnd ℂ) (SG Z pos iG) * phase iG (pos a)).im) * toR iG k)
        = -(eG p iG * 2 * Real.pi * toR iG k) * ((starRingEnd ℂ) (SG Z pos iG) * ((Z a : ℂ) * phase iG (pos a))).im := by
      intro a
      simp only [Complex.mul_im, Complex.mul_re, Complex.conj_re, Complex.conj_im, Complex.ofReal_re, Complex.ofReal_im]; ring
    simp only [e]
    rw [← Finset.mul_sum, ← Complex.im_sum, ← Finset.mul_sum]
    show _ * ((starRingEnd ℂ) (SG Z pos iG) * SG Z pos iG).im = 0
    rw [mul_comm ((starRingEnd ℂ) _), Complex.mul_conj]
    simp

end
end Jdftx.Ewald
