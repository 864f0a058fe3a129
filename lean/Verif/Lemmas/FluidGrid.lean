import Verif.Lemmas.FluidEx
import Verif.Lemmas.HalfFFT

/-!
# Lemmas for C93: fields on a grid and mixtures
-/
namespace Jdftx.Fluid
open Box ExCorr Cavity Filter Topology
open scoped ComplexConjugate
noncomputable section

/-! ### Derivatives of quantities that may fail to be numbers -/

theorem HasDerivO.congr_deriv {f : ℝ → Option ℝ} {a b t : ℝ} (h : HasDerivO f a t) (e : a = b) : HasDerivO f b t := e ▸ h

theorem HasDerivO.const (c t : ℝ) : HasDerivO (fun _ => some c) 0 t := ⟨fun _ => c, Eventually.of_forall fun _ => rfl, hasDerivAt_const _ _⟩

theorem HasDerivO.mapMul {f : ℝ → Option ℝ} {f' t : ℝ} (c : ℝ) (h : HasDerivO f f' t) : HasDerivO (fun s => (f s).map (c * ·)) (c * f') t := by
  obtain ⟨F, hF, hd⟩ := h
  refine ⟨fun s => c * F s, ?_, hd.const_mul c⟩
  filter_upwards [hF] with s hs
  rw [hs]; rfl

theorem HasDerivO.sumO {n : Nat} {f : ℝ → Nat → Option ℝ} {f' : Nat → ℝ} {t : ℝ} (h : ∀ j < n, HasDerivO (fun s => f s j) (f' j) t) :
    HasDerivO (fun s => sumO n (f s)) (∑ j ∈ Finset.range n, f' j) t := by
  choose! F hF using h
  refine ⟨fun s => ∑ j ∈ Finset.range n, F j s, ?_, HasDerivAt.fun_sum fun j hj => (hF j (Finset.mem_range.1 hj)).2⟩
  have : ∀ᶠ s in 𝓝 t, ∀ j ∈ Finset.range n, f s j = some (F j s) := (Filter.eventually_all_finset _).2 fun j hj => (hF j (Finset.mem_range.1 hj)).1
  filter_upwards [this] with s hs
  unfold Fluid.sumO
  rw [if_pos fun j hj => by rw [hs j (Finset.mem_range.2 hj)]; rfl]
  congr 1
  exact Finset.sum_congr rfl fun j hj => by rw [hs j hj]; rfl

theorem HasDerivO.addO {α : Type} (l : List α) {f : α → ℝ → Option ℝ} {f' : α → ℝ} {t : ℝ} (h : ∀ a ∈ l, HasDerivO (f a) (f' a) t) :
    HasDerivO (fun s => Fluid.addO (l.map fun a => f a s)) (l.map f').sum t := by
  induction l with
  | nil => exact HasDerivO.const 0 t
  | cons a l ih =>
    obtain ⟨F, hF, hd⟩ := h a (by simp)
    obtain ⟨F2, hF2, hd2⟩ := ih fun b hb => h b (by simp [hb])
    refine ⟨fun s => F s + F2 s, ?_, ?_⟩
    · filter_upwards [hF, hF2] with s h1 h2
      simp only [List.map_cons, Fluid.addO, h1, h2]; rfl
    · rw [List.map_cons, List.sum_cons]; exact hd.add hd2

theorem HasDerivO.addO_cons {α : Type} (l : List α) {f0 : ℝ → Option ℝ} {f : α → ℝ → Option ℝ} {f0' : ℝ} {f' : α → ℝ} {t : ℝ} (h0 : HasDerivO f0 f0' t) (h : ∀ a ∈ l, HasDerivO (f a) (f' a) t) :
    HasDerivO (fun s => Fluid.addO (f0 s :: l.map fun a => f a s)) (f0' + (l.map f').sum) t := by
  obtain ⟨F, hF, hd⟩ := h0
  obtain ⟨F2, hF2, hd2⟩ := HasDerivO.addO l h
  refine ⟨fun s => F s + F2 s, ?_, hd.add hd2⟩
  filter_upwards [hF, hF2] with s h1 h2
  simp only [Fluid.addO, h1, h2]; rfl

/-! ### Adjoints -/

variable (g : Grid)

theorem innerG_congr {X X' Y Y' : Arr} (hX : ∀ i : Nat, i < nG g.S → X i = X' i) (hY : ∀ i : Nat, i < nG g.S → Y i = Y' i) : innerG g X Y = innerG g X' Y' :=
  Finset.sum_congr rfl fun i hi => by rw [hX i (Finset.mem_range.1 hi), hY i (Finset.mem_range.1 hi)]

theorem innerG_add_left (X X' Y : Arr) : innerG g (fun i => X i + X' i) Y = innerG g X Y + innerG g X' Y := by
  simp only [innerG, ← Finset.sum_add_distrib]
  refine Finset.sum_congr rfl fun i _ => ?_
  rw [map_add, add_mul, Complex.add_re, mul_add]

theorem innerG_neg_left (X Y : Arr) : innerG g (fun i => -X i) Y = -innerG g X Y := by
  simp only [innerG, ← Finset.sum_neg_distrib]
  refine Finset.sum_congr rfl fun i _ => ?_
  rw [map_neg, neg_mul, Complex.neg_re, mul_neg]

theorem innerG_smul_left (c : ℝ) (X Y : Arr) : innerG g (fun i => (c : ℂ) * X i) Y = c * innerG g X Y := by
  simp only [innerG, Finset.mul_sum]
  refine Finset.sum_congr rfl fun i _ => ?_
  rw [map_mul, Complex.conj_ofReal, mul_assoc, Complex.re_ofReal_mul]; ring

theorem innerG_list_left {α : Type} (l : List α) (X : α → Arr) (Y : Arr) : innerG g (fun i => (l.map fun a => X a i).sum) Y = (l.map fun a => innerG g (X a) Y).sum := by
  induction l with
  | nil => simp [innerG]
  | cons a l ih => simp only [List.map_cons, List.sum_cons]; rw [innerG_add_left, ih]

theorem innerG_sum_right {α : Type} (l : Finset α) (X : Arr) (Y : α → Arr) : innerG g X (fun i => ∑ a ∈ l, Y a i) = ∑ a ∈ l, innerG g X (Y a) := by
  simp only [innerG]
  rw [Finset.sum_comm]
  refine Finset.sum_congr rfl fun i _ => ?_
  rw [Finset.mul_sum, Complex.re_sum, Finset.mul_sum]

theorem innerG_mult (M : Nat → ℂ) (X Y : Arr) : innerG g X (mult M Y) = innerG g (mult (fun i => conj (M i)) X) Y := by
  refine Finset.sum_congr rfl fun i _ => ?_
  simp only [mult, map_mul, Complex.conj_conj]
  congr 2; ring

theorem adj (u : Field) (X : Arr) : ∑ j ∈ Finset.range (nr g.S), u j * fftI g.S X j = innerG g (Idag g.S u) X := fftI_adjoint g.S u X

theorem innerG_wMul (w : Nat → ℝ) (X Y : Arr) : innerG g X (wMul w Y) = innerG g (wMul w X) Y := by
  have := innerG_mult g (fun i => (w i : ℂ)) X Y
  simp only [Complex.conj_ofReal] at this
  exact this

theorem adj_grad (hS : g.S.Pos) (v : Fin 3 → Field) (X : Arr) :
    ∑ j ∈ Finset.range (nr g.S), dot3 (fun k => v k j) (fun k => fftI g.S (gradient g.S g.G X k) j) = -innerG g (divergence g.S g.G fun k => Idag g.S (v k)) X := by
  have e : ∀ k, ∑ j ∈ Finset.range (nr g.S), v k j * fftI g.S (gradient g.S g.G X k) j = -innerG g (mult (Mgrad g.S g.G k) (Idag g.S (v k))) X := by
    intro k
    rw [adj, innerG_congr g (fun _ _ => rfl) (fun i hi => gradient_at g.S hS g.G X k i hi), innerG_mult, ← innerG_neg_left]
    refine innerG_congr g (fun i _ => ?_) fun _ _ => rfl
    simp only [mult, Mgrad_conj]; ring
  simp only [dot3, Finset.sum_add_distrib, e]
  rw [innerG_congr g (X := divergence g.S g.G fun k => Idag g.S (v k)) (X' := fun i => ∑ k, mult (Mgrad g.S g.G k) (Idag g.S (v k)) i) (fun i hi => divergence_at g.S hS g.G _ i hi) fun _ _ => rfl]
  simp only [Fin.sum_univ_three, innerG_add_left]
  ring

/-- The multipliers of the tensor kernel. -/
def Mten (i : Nat) : Tensor ℝ :=
  let v := hStart g.S i
  let G := fun k => gvec g.G v k
  let gsq := G 0 * G 0 + G 1 * G 1 + G 2 * G 2
  let c : ℝ := if isNyquist g.S v then 0 else -1
  ⟨c * (G 0 * G 1), c * (G 1 * G 2), c * (G 2 * G 0), c * (G 0 * G 0 - (1 / 3) * gsq), c * (G 1 * G 1 - (1 / 3) * gsq)⟩

theorem tensor_at (hS : g.S.Pos) (X : Arr) (i : Nat) (hi : i < nG g.S) :
    (tensorKernel g X).xy i = wMul (fun i => (Mten g i).xy) X i ∧ (tensorKernel g X).yz i = wMul (fun i => (Mten g i).yz) X i ∧ (tensorKernel g X).zx i = wMul (fun i => (Mten g i).zx) X i
      ∧ (tensorKernel g X).xxr i = wMul (fun i => (Mten g i).xxr) X i ∧ (tensorKernel g X).yyr i = wMul (fun i => (Mten g i).yyr) X i := by
  unfold tensorKernel
  simp only [halfMap_get g.S hS _ i hi, wMul, Mten, Int.toNat_natCast]
  by_cases h : isNyquist g.S (hStart g.S i)
  · simp [h]
  · simp only [h, if_false, Bool.false_eq_true]
    push_cast
    refine ⟨?_, ?_, ?_, ?_, ?_⟩ <;> ring

theorem tensorGrad_at (hS : g.S.Pos) (V : Tensor Arr) (i : Nat) (hi : i < nG g.S) :
    tensorKernelGrad g V i = wMul (fun i => (Mten g i).xy) V.xy i + wMul (fun i => (Mten g i).yz) V.yz i + wMul (fun i => (Mten g i).zx) V.zx i
      + wMul (fun i => (Mten g i).xxr) V.xxr i + wMul (fun i => (Mten g i).yyr) V.yyr i := by
  unfold tensorKernelGrad
  simp only [halfMap_get g.S hS _ i hi, wMul, Mten, Int.toNat_natCast]
  by_cases h : isNyquist g.S (hStart g.S i)
  · simp [h]
  · simp only [h, if_false, Bool.false_eq_true]
    push_cast
    ring

/-- The tensor kernel on the grid. -/
def tensorI (X : Arr) (j : Nat) : Tensor ℝ :=
  ⟨fftI g.S (tensorKernel g X).xy j, fftI g.S (tensorKernel g X).yz j, fftI g.S (tensorKernel g X).zx j, fftI g.S (tensorKernel g X).xxr j, fftI g.S (tensorKernel g X).yyr j⟩

theorem adj_tensor (hS : g.S.Pos) (V : Nat → Tensor ℝ) (X : Arr) :
    ∑ j ∈ Finset.range (nr g.S), tdot (V j) (tensorI g X j)
      = innerG g (tensorKernelGrad g ⟨Idag g.S fun j => (V j).xy, Idag g.S fun j => (V j).yz, Idag g.S fun j => (V j).zx, Idag g.S fun j => (V j).xxr, Idag g.S fun j => (V j).yyr⟩) X := by
  simp only [tdot, tensorI, Finset.sum_add_distrib]
  rw [adj g (fun j => (V j).xy), adj g (fun j => (V j).yz), adj g (fun j => (V j).zx), adj g (fun j => (V j).xxr), adj g (fun j => (V j).yyr)]
  rw [innerG_congr g (fun _ _ => rfl) (fun i hi => (tensor_at g hS X i hi).1), innerG_congr g (fun _ _ => rfl) (fun i hi => (tensor_at g hS X i hi).2.1),
    innerG_congr g (fun _ _ => rfl) (fun i hi => (tensor_at g hS X i hi).2.2.1), innerG_congr g (fun _ _ => rfl) (fun i hi => (tensor_at g hS X i hi).2.2.2.1),
    innerG_congr g (fun _ _ => rfl) (fun i hi => (tensor_at g hS X i hi).2.2.2.2)]
  have e : ∀ W : Tensor Arr, innerG g (tensorKernelGrad g W) X = innerG g (fun i => wMul (fun i => (Mten g i).xy) W.xy i + wMul (fun i => (Mten g i).yz) W.yz i
      + wMul (fun i => (Mten g i).zx) W.zx i + wMul (fun i => (Mten g i).xxr) W.xxr i + wMul (fun i => (Mten g i).yyr) W.yyr i) X :=
    fun W => innerG_congr g (fun i hi => tensorGrad_at g hS W i hi) fun _ _ => rfl
  rw [e]
  simp only [innerG_wMul, innerG_add_left]

theorem lin (a b t : ℝ) : HasDerivAt (fun t : ℝ => a + t * b) b t := by
  have := ((hasDerivAt_id t).mul_const b).const_add a
  simpa using this

theorem ADeriv.congr {X Y : ℝ → Arr} {X' Y' : Arr} {t : ℝ} (h : ADeriv g X X' t) (e : ∀ s, ∀ i : Nat, i < nG g.S → Y s i = X s i) (e' : ∀ i : Nat, i < nG g.S → Y' i = X' i) : ADeriv g Y Y' t := by
  intro i hi
  rw [e' i hi]
  simp only [fun s => e s i hi]
  exact h i hi

theorem ADeriv.fftI {X : ℝ → Arr} {X' : Arr} {t : ℝ} (h : ADeriv g X X' t) (j : Nat) : HasDerivAt (fun s => fftI g.S (X s) j) (fftI g.S X' j) t := by
  unfold ExCorr.fftI
  refine HasDerivAt.fun_sum fun i hi => ?_
  have := (h i (Finset.mem_range.1 hi)).mul_const (chi g.S i j)
  exact (Complex.reCLM.hasFDerivAt.comp_hasDerivAt t this).const_mul _

theorem ADeriv.mult {X : ℝ → Arr} {X' : Arr} {t : ℝ} (h : ADeriv g X X' t) (M : Nat → ℂ) : ADeriv g (fun s => mult M (X s)) (mult M X') t :=
  fun i hi => (h i hi).mul_const _

theorem ADeriv.wMul {X : ℝ → Arr} {X' : Arr} {t : ℝ} (h : ADeriv g X X' t) (w : Nat → ℝ) : ADeriv g (fun s => wMul w (X s)) (wMul w X') t :=
  fun i hi => (h i hi).mul_const _

theorem ADeriv.neg {X : ℝ → Arr} {X' : Arr} {t : ℝ} (h : ADeriv g X X' t) : ADeriv g (fun s i => -X s i) (fun i => -X' i) t := fun i hi => (h i hi).neg

theorem ADeriv.sum {α : Type} (l : Finset α) {X : ℝ → α → Arr} {X' : α → Arr} {t : ℝ} (h : ∀ a, ADeriv g (fun s => X s a) (X' a) t) :
    ADeriv g (fun s i => ∑ a ∈ l, X s a i) (fun i => ∑ a ∈ l, X' a i) t := fun i hi => HasDerivAt.fun_sum fun a _ => h a i hi

theorem ADeriv.smul {X : ℝ → Arr} {X' : Arr} {t : ℝ} (h : ADeriv g X X' t) (c : ℂ) : ADeriv g (fun s i => c * X s i) (fun i => c * X' i) t :=
  fun i hi => (h i hi).const_mul _

theorem ADeriv.gradient (hS : g.S.Pos) {X : ℝ → Arr} {X' : Arr} {t : ℝ} (h : ADeriv g X X' t) (k : Fin 3) :
    ADeriv g (fun s => gradient g.S g.G (X s) k) (gradient g.S g.G X' k) t :=
  ADeriv.congr g (h.mult g (Mgrad g.S g.G k)) (fun s i hi => gradient_at g.S hS g.G (X s) k i hi) fun i hi => gradient_at g.S hS g.G X' k i hi

theorem ADeriv.line (X Y : Arr) : ADeriv g (fun (t : ℝ) i => X i + (t : ℂ) * Y i) Y 0 := by
  intro i _
  have h : HasDerivAt (fun t : ℝ => (t : ℂ)) 1 0 := Complex.ofRealCLM.hasDerivAt
  have := (h.mul_const (Y i)).const_add (X i)
  simpa using this

/-- Derivative of a curve of weighted densities. -/
structure WDeriv (x : ℝ → Weighted) (x' : Weighted) (t : ℝ) : Prop where
  n0 : ∀ j, HasDerivAt (fun s => (x s).n0 j) (x'.n0 j) t
  n1 : ∀ j, HasDerivAt (fun s => (x s).n1 j) (x'.n1 j) t
  n2 : ∀ j, HasDerivAt (fun s => (x s).n2 j) (x'.n2 j) t
  n3 : ADeriv g (fun s => (x s).n3) x'.n3 t
  n1v : ADeriv g (fun s => (x s).n1v) x'.n1v t
  n2m : ADeriv g (fun s => (x s).n2m) x'.n2m t

theorem fmtAt_deriv (hS : g.S.Pos) {x : ℝ → Weighted} {dx : Weighted} {t : ℝ} (h : WDeriv g x dx t) (j : Nat) : FDeriv (fun t => fmtAt g (x t) j) (fmtAt g dx j) t where
  n0 := h.n0 j
  n1 := h.n1 j
  n2 := h.n2 j
  n3 := h.n3.fftI g j
  n1v k := (h.n1v.gradient g hS k).fftI g j
  n2v k := ((h.n3.neg g).gradient g hS k).fftI g j
  n2m := by
    have key : ∀ (w : Nat → ℝ) (A : Arr → Arr), (∀ X : Arr, ∀ i : Nat, i < nG g.S → A X i = wMul w X i) → HasDerivAt (fun s => fftI g.S (A (x s).n2m) j) (fftI g.S (A dx.n2m) j) t := by
      intro w A hA
      exact (ADeriv.congr g (h.n2m.wMul g w) (fun s i hi => hA _ i hi) fun i hi => hA _ i hi).fftI g j
    exact ⟨key _ (fun X => (tensorKernel g X).xy) fun X i hi => (tensor_at g hS X i hi).1, key _ (fun X => (tensorKernel g X).yz) fun X i hi => (tensor_at g hS X i hi).2.1,
      key _ (fun X => (tensorKernel g X).zx) fun X i hi => (tensor_at g hS X i hi).2.2.1, key _ (fun X => (tensorKernel g X).xxr) fun X i hi => (tensor_at g hS X i hi).2.2.2.1,
      key _ (fun X => (tensorKernel g X).yyr) fun X i hi => (tensor_at g hS X i hi).2.2.2.2⟩

/-- Product of the gradients with a change. -/
def wdot (a dx : Weighted) : ℝ :=
  ∑ j ∈ Finset.range (nr g.S), a.n0 j * dx.n0 j + ∑ j ∈ Finset.range (nr g.S), a.n1 j * dx.n1 j + ∑ j ∈ Finset.range (nr g.S), a.n2 j * dx.n2 j
    + innerG g a.n3 dx.n3 + innerG g a.n1v dx.n1v + innerG g a.n2m dx.n2m

theorem PhiFMT_deriv (hS : g.S.Pos) {y : ℝ → Weighted} {dx : Weighted} {t : ℝ} (hy : WDeriv g y dx t) (hr : ∀ j < nr g.S, FmtRegular (fmtAt g (y t) j)) :
    HasDerivO (fun t => PhiFMT g (y t)) (g.dV * wdot g (PhiFMTgrad g (y t)) dx) t := by
  unfold PhiFMT
  have h := HasDerivO.sumO (n := nr g.S) (f := fun t j => (phiFmt (fmtAt g (y t) j)).map Prod.fst)
    fun j hj => phiFmt_deriv (fmtAt_deriv g hS hy j) (hr j hj)
  generalize y t = x at *
  refine (h.mapMul g.dV).congr_deriv ?_
  congr 1
  simp only [wdot]
  have e : ∀ j, ((phiFmt (fmtAt g x j)).map Prod.snd).getD Fmt.zero = fmtGradAt g x j := fun j => rfl
  simp only [e, fdot, Finset.sum_add_distrib]
  have n3 : ∑ j ∈ Finset.range (nr g.S), (fmtGradAt g x j).n3 * (fmtAt g dx j).n3 = innerG g (Idag g.S fun j => (fmtGradAt g x j).n3) dx.n3 := adj g _ _
  have n1v : ∑ j ∈ Finset.range (nr g.S), dot3 (fmtGradAt g x j).n1v (fmtAt g dx j).n1v = innerG g (PhiFMTgrad g x).n1v dx.n1v := by
    have := adj_grad g hS (fun k j => (fmtGradAt g x j).n1v k) dx.n1v
    rw [← innerG_neg_left] at this
    exact this
  have n2v : ∑ j ∈ Finset.range (nr g.S), dot3 (fmtGradAt g x j).n2v (fmtAt g dx j).n2v
      = innerG g (divergence g.S g.G fun k => Idag g.S fun j => (fmtGradAt g x j).n2v k) dx.n3 := by
    have := adj_grad g hS (fun k j => (fmtGradAt g x j).n2v k) (fun i => -dx.n3 i)
    refine this.trans ?_
    simp only [innerG, ← Finset.sum_neg_distrib]
    refine Finset.sum_congr rfl fun i _ => ?_
    rw [mul_neg, Complex.neg_re]; ring
  have n2m : ∑ j ∈ Finset.range (nr g.S), tdot (fmtGradAt g x j).n2m (fmtAt g dx j).n2m = innerG g (PhiFMTgrad g x).n2m dx.n2m :=
    adj_tensor g hS (fun j => (fmtGradAt g x j).n2m) dx.n2m
  rw [n3, n1v, n2v, n2m]
  have e3 : innerG g (PhiFMTgrad g x).n3 dx.n3 = innerG g (Idag g.S fun j => (fmtGradAt g x j).n3) dx.n3
      + innerG g (divergence g.S g.G fun k => Idag g.S fun j => (fmtGradAt g x j).n2v k) dx.n3 := by
    rw [← innerG_add_left]; rfl
  rw [e3]
  simp only [PhiFMTgrad, fmtAt]
  ring

theorem PhiBond_deriv (hS : g.S.Pos) {Rhm scale : ℝ} (hR : 0 ≤ Rhm) {m0 m2 : ℝ → Field} {m3 : ℝ → Arr} {d0 d2 : Field} {d3 : Arr} {t : ℝ}
    (h0 : ∀ j, HasDerivAt (fun s => m0 s j) (d0 j) t) (h2 : ∀ j, HasDerivAt (fun s => m2 s j) (d2 j) t) (h3 : ADeriv g m3 d3 t)
    (hr : ∀ j < nr g.S, BndRegular (bndAt g (m0 t) (m2 t) (m3 t) j)) :
    HasDerivO (fun t => PhiBond g Rhm scale (m0 t) (m2 t) (m3 t))
      (g.dV * (∑ j ∈ Finset.range (nr g.S), (bndGradAt g Rhm scale (m0 t) (m2 t) (m3 t) j).n0 * d0 j + ∑ j ∈ Finset.range (nr g.S), (bndGradAt g Rhm scale (m0 t) (m2 t) (m3 t) j).n2 * d2 j
        + innerG g (PhiBond_n3 g Rhm scale (m0 t) (m2 t) (m3 t)) d3)) t := by
  unfold PhiBond
  have hb : ∀ j, BDeriv (fun t : ℝ => bndAt g (m0 t) (m2 t) (m3 t) j) (bndAt g d0 d2 d3 j) t := fun j =>
    ⟨h0 j, h2 j, h3.fftI g j, fun k => ((h3.neg g).gradient g hS k).fftI g j⟩
  have h := HasDerivO.sumO (n := nr g.S) (f := fun (t : ℝ) j => (phiBond Rhm scale (bndAt g (m0 t) (m2 t) (m3 t) j)).map Prod.fst)
    fun j hj => phiBond_deriv hR (hb j) (hr j hj)
  generalize m0 t = n0mol at *
  generalize m2 t = n2 at *
  generalize m3 t = n3 at *
  refine (h.mapMul g.dV).congr_deriv ?_
  congr 1
  have e : ∀ j, ((phiBond Rhm scale (bndAt g n0mol n2 n3 j)).map Prod.snd).getD ⟨0, 0, 0, fun _ => 0⟩ = bndGradAt g Rhm scale n0mol n2 n3 j := fun j => rfl
  simp only [e, bdot, Finset.sum_add_distrib]
  have n3e : ∑ j ∈ Finset.range (nr g.S), (bndGradAt g Rhm scale n0mol n2 n3 j).n3 * (bndAt g d0 d2 d3 j).n3 = innerG g (Idag g.S fun j => (bndGradAt g Rhm scale n0mol n2 n3 j).n3) d3 := adj g _ _
  have n2v : ∑ j ∈ Finset.range (nr g.S), dot3 (bndGradAt g Rhm scale n0mol n2 n3 j).n2v (bndAt g d0 d2 d3 j).n2v
      = innerG g (divergence g.S g.G fun k => Idag g.S fun j => (bndGradAt g Rhm scale n0mol n2 n3 j).n2v k) d3 := by
    have := adj_grad g hS (fun k j => (bndGradAt g Rhm scale n0mol n2 n3 j).n2v k) (fun i => -d3 i)
    refine this.trans ?_
    simp only [innerG, ← Finset.sum_neg_distrib]
    refine Finset.sum_congr rfl fun i _ => ?_
    rw [mul_neg, Complex.neg_re]; ring
  rw [n3e, n2v]
  have e3 : innerG g (PhiBond_n3 g Rhm scale n0mol n2 n3) d3 = innerG g (Idag g.S fun j => (bndGradAt g Rhm scale n0mol n2 n3 j).n3) d3
      + innerG g (divergence g.S g.G fun k => Idag g.S fun j => (bndGradAt g Rhm scale n0mol n2 n3 j).n2v k) d3 := by
    rw [← innerG_add_left]; rfl
  rw [e3]
  simp only [bndAt]
  ring

/-! ### The mixture -/

variable {C : Nat} (m : Mix C)

/-- The densities, changed. -/
def dmove (N dN : Dens m) (t : ℝ) : Dens m := fun c s i => N c s i + (t : ℂ) * dN c s i

/-- Derivative of a curve of densities. -/
def DDeriv (N : ℝ → Dens m) (N' : Dens m) (t : ℝ) : Prop := ∀ c s, ADeriv g (fun u => N u c s) (N' c s) t

theorem DDeriv.wsum {N : ℝ → Dens m} {N' : Dens m} {t : ℝ} (h : DDeriv g m N N' t) (w : Sphere → Nat → ℝ) (c : Fin C) : ADeriv g (fun u => wsum m w (N u) c) (wsum m w N' c) t :=
  ADeriv.sum g Finset.univ fun s => (h c s).wMul g _

theorem DDeriv.wtot {N : ℝ → Dens m} {N' : Dens m} {t : ℝ} (h : DDeriv g m N N' t) (w : Sphere → Nat → ℝ) : ADeriv g (fun u => wtot m w (N u)) (wtot m w N') t :=
  ADeriv.sum g Finset.univ fun c => h.wsum g m w c

theorem DDeriv.weighted {N : ℝ → Dens m} {N' : Dens m} {t : ℝ} (h : DDeriv g m N N' t) : WDeriv g (fun u => weighted g m (N u)) (weighted g m N') t where
  n0 := (h.wtot g m _).fftI g
  n1 := (h.wtot g m _).fftI g
  n2 := (h.wtot g m _).fftI g
  n3 := h.wtot g m _
  n1v := h.wtot g m _
  n2m := h.wtot g m _

theorem DDeriv.line (N dN : Dens m) : DDeriv g m (dmove m N dN) dN 0 := fun c s => ADeriv.line g (N c s) (dN c s)

theorem dmove_zero (N dN : Dens m) : dmove m N dN 0 = N := by funext c s i; simp [dmove]

theorem innerG_wsum (w : Sphere → Nat → ℝ) (X : Arr) (N : Dens m) (c : Fin C) : innerG g X (wsum m w N c) = ∑ s, innerG g (wMul (w (m.sphere c s)) X) (N c s) := by
  have : innerG g X (wsum m w N c) = _ := innerG_sum_right g Finset.univ X fun s => wMul (w (m.sphere c s)) (N c s)
  rw [this]
  exact Finset.sum_congr rfl fun s _ => innerG_wMul g _ _ _

theorem innerG_wtot (w : Sphere → Nat → ℝ) (X : Arr) (N : Dens m) : innerG g X (wtot m w N) = ∑ c, ∑ s, innerG g (wMul (w (m.sphere c s)) X) (N c s) := by
  have : innerG g X (wtot m w N) = _ := innerG_sum_right g Finset.univ X fun c => wsum m w N c
  rw [this]
  exact Finset.sum_congr rfl fun c _ => innerG_wsum g m w X N c

theorem sum_allBonds (f : Fin C → ℝ × Nat → ℝ) : ((allBonds m).map fun b => f b.1 b.2).sum = ∑ c, ((m.bonds c).map (f c)).sum := by
  have key : ∀ l : List (Fin C), ((l.flatMap fun c => (m.bonds c).map fun b => (c, b)).map fun b => f b.1 b.2).sum = (l.map fun c => ((m.bonds c).map (f c)).sum).sum := by
    intro l
    induction l with
    | nil => rfl
    | cons a l ih =>
      simp only [List.flatMap_cons, List.map_append, List.sum_append, List.map_cons, List.sum_cons, ih, List.map_map]
      rfl
  rw [allBonds, key, ← List.ofFn_eq_map, List.sum_ofFn]

/-- All grid points are regular for the hard spheres and for every bond. -/
def MixRegular (N : Dens m) : Prop :=
  (∀ j < nr g.S, FmtRegular (fmtAt g (weighted g m N) j)) ∧
    ∀ c, ∀ b ∈ m.bonds c, 0 ≤ b.1 ∧ ∀ j < nr g.S, BndRegular (bndAt g (n0mol g m N c) (weighted g m N).n2 (weighted g m N).n3 j)

theorem list_sum_mul {α : Type} (l : List α) (f : α → ℝ) (c : ℝ) : (l.map f).sum * c = (l.map fun a => f a * c).sum := by
  rw [List.sum_map_mul_right]

theorem list_sum_comm {α : Type} (l : List α) (n : Nat) (f : α → Nat → ℝ) : ∑ j ∈ Finset.range n, (l.map fun a => f a j).sum = (l.map fun a => ∑ j ∈ Finset.range n, f a j).sum := by
  induction l with
  | nil => simp
  | cons a l ih => simp only [List.map_cons, List.sum_cons, Finset.sum_add_distrib, ih]

theorem hardSphere_curve (hS : g.S.Pos) {M : ℝ → Dens m} {dN : Dens m} {t : ℝ} (hM : DDeriv g m M dN t) (hr : MixRegular g m (M t)) :
    HasDerivO (fun t => hardSphere g m (M t)) (g.dV * ∑ c, ∑ s, innerG g (hardSphereGrad g m (M t) c s) (dN c s)) t := by
  unfold hardSphere
  have hmem : ∀ b ∈ allBonds m, b.2 ∈ m.bonds b.1 := by
    intro b hb
    simp only [allBonds, List.mem_flatMap, List.mem_finRange, true_and, List.mem_map] at hb
    obtain ⟨c, p, hp, rfl⟩ := hb
    exact hp
  have h0 := (PhiFMT_deriv g hS (hM.weighted g m) hr.1).mapMul m.T
  have hb : ∀ b ∈ allBonds m, _ := fun b hb => (PhiBond_deriv g hS (scale := bondScale m b.1 b.2) (hr.2 b.1 b.2 (hmem b hb)).1 (m0 := fun t => n0mol g m (M t) b.1) (d0 := n0mol g m dN b.1)
    ((hM.wsum g m Sphere.w0 b.1).fftI g) (hM.weighted g m).n2 (hM.weighted g m).n3 (hr.2 b.1 b.2 (hmem b hb)).2).mapMul m.T
  refine (HasDerivO.addO_cons (allBonds m) h0 hb).congr_deriv ?_
  -- reduce to components
  generalize M t = N at *
  set x := PhiFMTgrad g (weighted g m N) with hx
  set B : Fin C × ℝ × Nat → Nat → Bnd := fun b j => bndGradAt g b.2.1 (bondScale m b.1 b.2) (n0mol g m N b.1) (weighted g m N).n2 (weighted g m N).n3 j with hB
  have e0 : ∑ j ∈ Finset.range (nr g.S), x.n0 j * (weighted g m dN).n0 j = ∑ c, ∑ s, innerG g (wMul (m.sphere c s).w0 (Idag g.S x.n0)) (dN c s) := by
    rw [← innerG_wtot]; exact adj g _ _
  have e1 : ∑ j ∈ Finset.range (nr g.S), x.n1 j * (weighted g m dN).n1 j = ∑ c, ∑ s, innerG g (wMul (m.sphere c s).w1 (Idag g.S x.n1)) (dN c s) := by
    rw [← innerG_wtot]; exact adj g _ _
  have e2 : ∑ j ∈ Finset.range (nr g.S), x.n2 j * (weighted g m dN).n2 j + ((allBonds m).map fun b => ∑ j ∈ Finset.range (nr g.S), (B b j).n2 * (weighted g m dN).n2 j).sum
      = ∑ c, ∑ s, innerG g (wMul (m.sphere c s).w2 (Idag g.S (Phi_n2 g m N))) (dN c s) := by
    rw [← innerG_wtot, ← adj, ← list_sum_comm]
    rw [← Finset.sum_add_distrib]
    refine Finset.sum_congr rfl fun j _ => ?_
    unfold Phi_n2
    rw [add_mul, list_sum_mul]; rfl
  have e3 : innerG g x.n3 (weighted g m dN).n3 + ((allBonds m).map fun b => innerG g (PhiBond_n3 g b.2.1 (bondScale m b.1 b.2) (n0mol g m N b.1) (weighted g m N).n2 (weighted g m N).n3) (weighted g m dN).n3).sum
      = ∑ c, ∑ s, innerG g (wMul (m.sphere c s).w3 (Phi_n3 g m N)) (dN c s) := by
    rw [← innerG_wtot]
    unfold Phi_n3
    rw [innerG_add_left, innerG_list_left]; rfl
  have e4 : innerG g x.n1v (weighted g m dN).n1v = ∑ c, ∑ s, innerG g (wMul (m.sphere c s).w1v x.n1v) (dN c s) := innerG_wtot g m _ _ _
  have e5 : innerG g x.n2m (weighted g m dN).n2m = ∑ c, ∑ s, innerG g (wMul (m.sphere c s).w2m x.n2m) (dN c s) := innerG_wtot g m _ _ _
  have e6 : ((allBonds m).map fun b => ∑ j ∈ Finset.range (nr g.S), (B b j).n0 * n0mol g m dN b.1 j).sum
      = ∑ c, ∑ s, innerG g (wMul (m.sphere c s).w0 (Idag g.S (Phi_n0mol g m N c))) (dN c s) := by
    rw [sum_allBonds m fun c b => ∑ j ∈ Finset.range (nr g.S), (B (c, b) j).n0 * n0mol g m dN c j]
    refine Finset.sum_congr rfl fun c _ => ?_
    rw [← innerG_wsum, ← adj, ← list_sum_comm]
    refine Finset.sum_congr rfl fun j _ => ?_
    unfold Phi_n0mol
    rw [list_sum_mul]; rfl
  have eR : ∑ c, ∑ s, innerG g (hardSphereGrad g m N c s) (dN c s)
      = m.T * (((allBonds m).map fun b => ∑ j ∈ Finset.range (nr g.S), (B b j).n0 * n0mol g m dN b.1 j).sum + ∑ j ∈ Finset.range (nr g.S), x.n0 j * (weighted g m dN).n0 j
        + ∑ j ∈ Finset.range (nr g.S), x.n1 j * (weighted g m dN).n1 j
        + (∑ j ∈ Finset.range (nr g.S), x.n2 j * (weighted g m dN).n2 j + ((allBonds m).map fun b => ∑ j ∈ Finset.range (nr g.S), (B b j).n2 * (weighted g m dN).n2 j).sum)
        + (innerG g x.n3 (weighted g m dN).n3 + ((allBonds m).map fun b => innerG g (PhiBond_n3 g b.2.1 (bondScale m b.1 b.2) (n0mol g m N b.1) (weighted g m N).n2 (weighted g m N).n3) (weighted g m dN).n3).sum)
        + innerG g x.n1v (weighted g m dN).n1v + innerG g x.n2m (weighted g m dN).n2m) := by
    rw [e0, e1, e2, e3, e4, e5, e6]
    simp only [← Finset.sum_add_distrib]
    rw [Finset.mul_sum]
    refine Finset.sum_congr rfl fun c _ => ?_
    rw [Finset.mul_sum]
    refine Finset.sum_congr rfl fun s _ => ?_
    unfold hardSphereGrad
    simp only [innerG_add_left, innerG_smul_left, ← hx]
    ring
  rw [eR]
  have split : ((allBonds m).map fun b => m.T * (g.dV * (∑ j ∈ Finset.range (nr g.S), (B b j).n0 * n0mol g m dN b.1 j + ∑ j ∈ Finset.range (nr g.S), (B b j).n2 * (weighted g m dN).n2 j
      + innerG g (PhiBond_n3 g b.2.1 (bondScale m b.1 b.2) (n0mol g m N b.1) (weighted g m N).n2 (weighted g m N).n3) (weighted g m dN).n3))).sum
      = m.T * (g.dV * (((allBonds m).map fun b => ∑ j ∈ Finset.range (nr g.S), (B b j).n0 * n0mol g m dN b.1 j).sum
        + ((allBonds m).map fun b => ∑ j ∈ Finset.range (nr g.S), (B b j).n2 * (weighted g m dN).n2 j).sum
        + ((allBonds m).map fun b => innerG g (PhiBond_n3 g b.2.1 (bondScale m b.1 b.2) (n0mol g m N b.1) (weighted g m N).n2 (weighted g m N).n3) (weighted g m dN).n3).sum)) := by
    rw [← List.sum_map_add, ← List.sum_map_add, ← List.sum_map_mul_left, ← List.sum_map_mul_left]
  refine (congrArg (_ + ·) split).trans ?_
  unfold wdot
  ring

theorem hardSphere_deriv (hS : g.S.Pos) (N dN : Dens m) (hr : MixRegular g m N) :
    HasDerivO (fun t => hardSphere g m (dmove m N dN t)) (g.dV * ∑ c, ∑ s, innerG g (hardSphereGrad g m N c s) (dN c s)) 0 := by
  have := hardSphere_curve g m hS (DDeriv.line g m N dN) (by rwa [dmove_zero])
  rwa [dmove_zero] at this

end
end Jdftx.Fluid
