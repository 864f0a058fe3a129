import Verif.Spec.FluidMix
import Verif.Lemmas.FluidEos
import Verif.Lemmas.FluidFex
import Verif.Lemmas.FluidTrans
import Verif.Lemmas.PCMSolve

/-!
# Lemmas for C95: ideal gases
-/
namespace Jdftx.Fluid
open Box ExCorr Cavity Filter Topology
open scoped ComplexConjugate
noncomputable section

variable (g : Grid)

/-! ### Sums over the grid -/

/-- Sum of a field over the grid. -/
def sumF (x : Field) : ℝ := ∑ j ∈ Finset.range (nr g.S), x j

theorem dotF_congr {x x' y y' : Field} (hx : ∀ j < nr g.S, x j = x' j) (hy : ∀ j < nr g.S, y j = y' j) : dotF g x y = dotF g x' y' :=
  Finset.sum_congr rfl fun j hj => by rw [hx j (Finset.mem_range.1 hj), hy j (Finset.mem_range.1 hj)]

theorem dotF_comm (x y : Field) : dotF g x y = dotF g y x := Finset.sum_congr rfl fun _ _ => mul_comm _ _

theorem dotF_add_left (x y z : Field) : dotF g (fun j => x j + y j) z = dotF g x z + dotF g y z := by
  simp only [dotF, ← Finset.sum_add_distrib]; exact Finset.sum_congr rfl fun j _ => by ring

theorem dotF_add_right (x y z : Field) : dotF g z (fun j => x j + y j) = dotF g z x + dotF g z y := by
  simp only [dotF, ← Finset.sum_add_distrib]; exact Finset.sum_congr rfl fun j _ => by ring

theorem dotF_smul_left (a : ℝ) (x z : Field) : dotF g (fun j => a * x j) z = a * dotF g x z := by
  simp only [dotF, Finset.mul_sum]; exact Finset.sum_congr rfl fun j _ => by ring

theorem dotF_smul_right (a : ℝ) (x z : Field) : dotF g z (fun j => a * x j) = a * dotF g z x := by
  simp only [dotF, Finset.mul_sum]; exact Finset.sum_congr rfl fun j _ => by ring

theorem dotF_const_left (a : ℝ) (z : Field) : dotF g (fun _ => a) z = a * sumF g z := by simp only [dotF, sumF, Finset.mul_sum]

theorem dotF_const_right (a : ℝ) (z : Field) : dotF g z (fun _ => a) = a * sumF g z := by rw [dotF_comm, dotF_const_left]

theorem dotF_sum_left {α : Type} (l : Finset α) (x : α → Field) (z : Field) : dotF g (fun j => ∑ a ∈ l, x a j) z = ∑ a ∈ l, dotF g (x a) z := by
  simp only [dotF, Finset.sum_mul]; exact Finset.sum_comm

theorem dotF_sum_right {α : Type} (l : Finset α) (x : α → Field) (z : Field) : dotF g z (fun j => ∑ a ∈ l, x a j) = ∑ a ∈ l, dotF g z (x a) := by
  rw [dotF_comm, dotF_sum_left]; exact Finset.sum_congr rfl fun a _ => dotF_comm g _ _

theorem integ_eq (x : Field) : integ g x = g.dV * sumF g x := rfl

theorem sumF_smul (a : ℝ) (x : Field) : sumF g (fun j => a * x j) = a * sumF g x := by simp only [sumF, Finset.mul_sum]

theorem dotF_deriv {x y : ℝ → Field} {x' y' : Field} {u : ℝ} (hx : ∀ j < nr g.S, HasDerivAt (fun v => x v j) (x' j) u) (hy : ∀ j < nr g.S, HasDerivAt (fun v => y v j) (y' j) u) :
    HasDerivAt (fun v => dotF g (x v) (y v)) (dotF g x' (y u) + dotF g (x u) y') u := by
  unfold dotF
  rw [← Finset.sum_add_distrib]
  exact HasDerivAt.fun_sum fun j hj => (hx j (Finset.mem_range.1 hj)).mul (hy j (Finset.mem_range.1 hj))

theorem sumF_deriv {x : ℝ → Field} {x' : Field} {u : ℝ} (hx : ∀ j < nr g.S, HasDerivAt (fun v => x v j) (x' j) u) : HasDerivAt (fun v => sumF g (x v)) (sumF g x') u :=
  HasDerivAt.fun_sum fun j hj => hx j (Finset.mem_range.1 hj)

/-- Transposing the transform that produces `Ntilde`. -/
theorem innerG_fftJ (X : Arr) (y : Field) : innerG g X (fftJ g.S y) = dotF g (Jdag g.S X) y := by
  have h := adj g y X
  have e : fftJ g.S y = fun i => ((1 / (nr g.S : ℝ) : ℝ) : ℂ) * Idag g.S y i := rfl
  rw [e, innerG_smul_right, innerG_comm, ← h]
  simp only [dotF, Jdag, Finset.mul_sum]
  exact Finset.sum_congr rfl fun j _ => by ring

/-- A kernel applied in reciprocal space is symmetric. -/
theorem kernel_symm (w : Nat → ℝ) (x y : Field) : dotF g (fftI g.S (wMul w (fftJ g.S x))) y = dotF g (fftI g.S (wMul w (fftJ g.S y))) x := by
  have e : ∀ x y : Field, dotF g (fftI g.S (wMul w (fftJ g.S x))) y = (nr g.S : ℝ) * innerG g (wMul w (fftJ g.S x)) (fftJ g.S y) := by
    intro x y
    rw [innerG_fftJ]
    rcases Nat.eq_zero_or_pos (nr g.S) with h | h
    · simp [dotF, h]
    · have : (nr g.S : ℝ) ≠ 0 := by exact_mod_cast h.ne'
      simp only [dotF, Jdag, Finset.mul_sum]
      refine Finset.sum_congr rfl fun j _ => ?_
      field_simp
  rw [e, e, ← innerG_wMul, innerG_comm]

/-! ### Translations -/

variable {n nO : Nat} (o : Orient n nO)

theorem run_linear (hS : g.S.Pos) (t : TransOp) (f : Fin 3 → ℝ) (x : Field) (j : Nat) (hj : j < nr g.S) :
    t.run g.S f x j = ∑ i ∈ Finset.range (nr g.S), x i * t.run g.S (fun k => -f k) (fun l => if l = j then 1 else 0) i := by
  rw [← run_adj g.S t hS f x]
  simp only [mul_ite, mul_one, mul_zero]
  rw [Finset.sum_ite_eq' (Finset.range (nr g.S)) j, if_pos (Finset.mem_range.2 hj)]

theorem run_deriv (hS : g.S.Pos) (t : TransOp) (f : Fin 3 → ℝ) {x : ℝ → Field} {x' : Field} {u : ℝ} (hx : ∀ j < nr g.S, HasDerivAt (fun v => x v j) (x' j) u) (j : Nat) (hj : j < nr g.S) :
    HasDerivAt (fun v => t.run g.S f (x v) j) (t.run g.S f x' j) u := by
  rw [run_linear g hS t f x' j hj]
  simp only [run_linear g hS t f _ j hj]
  exact HasDerivAt.fun_sum fun i hi => (hx i (Finset.mem_range.1 hi)).mul_const _

theorem move_deriv (hS : g.S.Pos) (l : List (Fin 3 → ℝ)) {x : ℝ → Field} {x' : Field} {u : ℝ} (hx : ∀ j < nr g.S, HasDerivAt (fun v => x v j) (x' j) u) (j : Nat) (hj : j < nr g.S) :
    HasDerivAt (fun v => o.move g l (x v) j) (o.move g l x' j) u := by
  unfold Orient.move
  induction l with
  | nil => simpa using hasDerivAt_const u (0 : ℝ)
  | cons f l ih => simp only [List.map_cons, List.sum_cons]; exact (run_deriv g hS o.trans f hx j hj).add ih

theorem move_adj (hS : g.S.Pos) (l : List (Fin 3 → ℝ)) (x y : Field) : dotF g (o.move g l x) y = dotF g x (o.move g (back l) y) := by
  unfold Orient.move back
  induction l with
  | nil => simp [dotF]
  | cons f l ih =>
    simp only [List.map_cons, List.sum_cons]
    rw [dotF_add_left, dotF_add_right, ih]
    congr 1
    exact run_adj g.S o.trans hS f x y

theorem back_back (l : List (Fin 3 → ℝ)) : back (back l) = l := by simp [back, Function.comp_def]

theorem move_sum (hS : g.S.Pos) (l : List (Fin 3 → ℝ)) (x : Field) : sumF g (o.move g l x) = l.length * sumF g x := by
  have h := move_adj g o hS l x fun _ => 1
  have e : ∀ j < nr g.S, o.move g (back l) (fun _ => 1) j = l.length := by
    intro j hj
    unfold Orient.move back
    induction l with
    | nil => simp
    | cons f l ih =>
      simp only [List.map_cons, List.sum_cons, List.length_cons]
      rw [run_uniform g.S o.trans hS _ 1 (fun _ => 1) (fun _ _ => rfl) j hj]
      have := ih (move_adj g o hS l x fun _ => 1)
      rw [this]; push_cast; ring
  rw [dotF_congr g (fun _ _ => rfl) e, dotF_const_right, dotF_const_right, one_mul] at h
  exact h

/-! ### Representations -/

variable (r : Rep)

theorem logP_deriv (hS : g.S.Pos) {Ψ : ℝ → Fin (r.nI n nO) → Field} {dpsi : Fin (r.nI n nO) → Field} {u : ℝ} (h : ∀ k, ∀ j < nr g.S, HasDerivAt (fun v => Ψ v k j) (dpsi k j) u)
    (w : Fin nO) (j : Nat) (hj : j < nr g.S) : HasDerivAt (fun v => o.logP g r (Ψ v) w j) (o.logP g r dpsi w j) u := by
  cases r with
  | pomega => exact h w j hj
  | psiAlpha => exact HasDerivAt.fun_sum fun i _ => move_deriv g o hS _ (h i) j hj
  | muEps =>
    have h' : ∀ k : Fin 4, HasDerivAt (fun v => (Ψ v : Fin 4 → Field) k j) ((dpsi : Fin 4 → Field) k j) u := fun k => h k j hj
    exact (h' 0).add ((((h' 1).const_mul _).add ((h' 2).const_mul _)).add ((h' 3).const_mul _))

theorem muEps_dual (Phi : Fin nO → Field) (d : Fin 4 → Field) : ∑ w, dotF g (Phi w) (o.logMuEps d w) = ∑ k, dotF g (o.gradMuEps Phi k) (d k) := by
  show ∑ w, dotF g (Phi w) (fun j => d 0 j + (o.dip w 0 * d 1 j + o.dip w 1 * d 2 j + o.dip w 2 * d 3 j)) = _
  rw [Fin.sum_univ_four]
  simp only [Orient.gradMuEps, Matrix.cons_val_zero, Matrix.cons_val_one, Matrix.cons_val, dotF_sum_left, dotF_add_right, dotF_smul_left, dotF_smul_right, Finset.sum_add_distrib]
  ring

theorem rep_dual (hS : g.S.Pos) (Phi : Fin nO → Field) (dpsi : Fin (r.nI n nO) → Field) :
    ∑ w, dotF g (Phi w) (o.logP g r dpsi w) = ∑ k, dotF g (o.gradRep g r Phi k) (dpsi k) := by
  cases r with
  | pomega => rfl
  | psiAlpha =>
    show ∑ w, dotF g (Phi w) (fun j => ∑ i : Fin (n + 1), o.move g (back (o.disp w i)) (dpsi i) j) = ∑ i : Fin (n + 1), dotF g (fun j => ∑ w, o.move g (o.disp w i) (Phi w) j) (dpsi i)
    simp only [dotF_sum_right, dotF_sum_left]
    rw [Finset.sum_comm]
    exact Finset.sum_congr rfl fun i _ => Finset.sum_congr rfl fun w _ => (move_adj g o hS _ _ _).symm
  | muEps =>
    exact muEps_dual g o Phi dpsi

/-! ### The gases -/

theorem gasMono_grad (T mu Nbulk : ℝ) (V : Field) (psi : Fin 1 → Field) (ν : ℝ) (hν : 0 < ν) : GasGrad g T 1 (gasMono g T mu Nbulk V) psi ν := by
  intro (Ψ : ℝ → Fin 1 → Field) (dpsi : Fin 1 → Field) s s' u hΨ hs hd hs'
  set N : Field := fun j => Nbulk * Real.exp (psi 0 j) with hN
  have hΨ' : ∀ j, Ψ u 0 j = psi 0 j := fun j => by rw [← hΨ]
  have hd0 : ∀ j < nr g.S, HasDerivAt (fun v => Ψ v 0 j) (dpsi 0 j) u := fun j hj => hd (0 : Fin 1) j hj
  have hdN : ∀ j < nr g.S, HasDerivAt (fun v => Nbulk * Real.exp (Ψ v 0 j)) (N j * dpsi 0 j) u := by
    intro j hj
    refine ((hd0 j hj).exp.const_mul Nbulk).congr_deriv ?_
    rw [hΨ', hN]; ring
  have hdX : ∀ j < nr g.S, HasDerivAt (fun v => s v * (Nbulk * Real.exp (Ψ v 0 j))) (s' * N j + ν * (N j * dpsi 0 j)) u := by
    intro j hj
    have := hs'.mul (hdN j hj)
    rw [hs, hΨ'] at this
    exact this
  have hlog : HasDerivAt (fun v => T * Real.log (s v) / ((1 : Nat) : ℝ)) (T * (s' / ν)) u := by
    have := ((hs'.log (by rw [hs]; exact hν.ne')).const_mul T)
    rw [hs] at this
    simpa using this
  set d : Field := fun j => dpsi 0 j
  refine ⟨fun _ j => N j * d j, fun _ => 0, g.dV * (dotF g (fun j => s' * N j + ν * (N j * d j)) (fun j => T * psi 0 j + V j - (mu + T)) + dotF g (fun j => ν * N j) (fun j => T * d j))
    + (g.dV * sumF g (fun j => s' * N j + ν * (N j * d j)) * (T * Real.log ν / ((1 : Nat) : ℝ)) + g.dV * sumF g (fun j => ν * N j) * (T * (s' / ν))), ?_, ?_, ?_, ?_⟩
  · exact fun _ j hj => hdN j hj
  · exact fun _ => hasDerivAt_const _ _
  · intro X hX
    have hf : HasDerivAt (fun v => g.dV * dotF g (fun j => s v * (Nbulk * Real.exp (Ψ v 0 j))) (fun j => T * Ψ v 0 j + V j - (mu + T))
        + g.dV * sumF g (fun j => s v * (Nbulk * Real.exp (Ψ v 0 j))) * (T * Real.log (s v) / ((1 : Nat) : ℝ))) _ u :=
      ((dotF_deriv g (x' := fun j => s' * N j + ν * (N j * d j)) (y' := fun j => T * d j) hdX fun j hj => (((hd0 j hj).const_mul T).add_const (V j)).sub_const (mu + T)).const_mul g.dV).add
        (((sumF_deriv g (x' := fun j => s' * N j + ν * (N j * d j)) hdX).const_mul g.dV).mul hlog)
    have he : (fun v => (gasMono g T mu Nbulk V).energy (Ψ v) (X v) (s v) + integ g (X v 0) * (T * Real.log (s v) / ((1 : Nat) : ℝ))) =ᶠ[𝓝 u]
        fun v => g.dV * dotF g (fun j => s v * (Nbulk * Real.exp (Ψ v 0 j))) (fun j => T * Ψ v 0 j + V j - (mu + T))
        + g.dV * sumF g (fun j => s v * (Nbulk * Real.exp (Ψ v 0 j))) * (T * Real.log (s v) / ((1 : Nat) : ℝ)) := by
      filter_upwards [hX] with v hv
      have h0 : ∀ j < nr g.S, X v 0 j = s v * (Nbulk * Real.exp (Ψ v 0 j)) := fun j hj => hv 0 j hj
      show g.dV * dotF g (X v 0) _ + g.dV * sumF g (X v 0) * _ = _
      rw [dotF_congr g h0 fun _ _ => rfl]
      congr 3
      exact Finset.sum_congr rfl fun j hj => h0 j (Finset.mem_range.1 hj)
    refine (hf.congr_of_eventuallyEq he).congr_deriv ?_
    simp only [hs, hΨ', hN]
  · intro X A B a hX
    have h0 : ∀ j < nr g.S, X 0 j = ν * N j := fun j hj => hX 0 j hj
    have e1 : ∀ Y : Fin 1 → Field, ∑ k : Fin 1, dotF g (fun j => X 0 j * Y 0 j) (dpsi k) = dotF g (fun j => ν * N j * Y 0 j) d := by
      intro Y
      rw [Fin.sum_univ_one]
      exact dotF_congr g (fun j hj => by rw [h0 j hj]) fun _ _ => rfl
    have e2 := e1 fun i j => A i j + (gasMono g T mu Nbulk V).addN psi i j + (if i = 0 then T * Real.log ν / ((1 : Nat) : ℝ) else 0) + (if i = 0 then a else 0)
    refine Eq.trans ?_ (congrArg (fun z => g.dV * z + _) e2.symm)
    have eS : ∀ f : Fin (0 + 1) → ℝ, ∑ x, f x = f 0 := fun f => Fin.sum_univ_one f
    simp only [gasMono, zero_add, eS, Fin.isValue, if_true, mul_zero, add_zero, Finset.sum_const_zero, zero_mul, Nat.cast_one, div_one]
    simp only [dotF, sumF, Finset.mul_sum, Finset.sum_mul, ← Finset.sum_add_distrib]
    refine Finset.sum_congr rfl fun j _ => ?_
    field_simp
    ring


/-! ### Molecules with orientations -/

/-- The operator of the dipole correlations. -/
def corrK (x : Field) : Field := fftI g.S (wMul (fun i => o.mfKernel i * o.mfKernel i * o.corrPrefac) (fftJ g.S x))

theorem EcorrP_eq (psi : Fin (r.nI n nO) → Field) (k : Fin 3) : o.EcorrP g r psi k = corrK g o (o.P g r psi k) := by
  unfold Orient.EcorrP corrK
  congr 1; funext i; simp only [wMul]; push_cast; ring

theorem corrK_deriv {x : ℝ → Field} {x' : Field} {u : ℝ} (hx : ∀ j < nr g.S, HasDerivAt (fun v => x v j) (x' j) u) (j : Nat) : HasDerivAt (fun v => corrK g o (x v) j) (corrK g o x' j) u := by
  have : ADeriv g (fun v => fftJ g.S (x v)) (fftJ g.S x') u := fun i _ => PCM.fftJ_deriv g.S x x' u hx i
  exact (this.wMul g _).fftI g j

theorem No_deriv (hS : g.S.Pos) {Ψ : ℝ → Fin (r.nI n nO) → Field} {dpsi : Fin (r.nI n nO) → Field} {u : ℝ} (h : ∀ k, ∀ j < nr g.S, HasDerivAt (fun v => Ψ v k j) (dpsi k j) u)
    (w : Fin nO) (j : Nat) (hj : j < nr g.S) : HasDerivAt (fun v => o.No g r (Ψ v) w j) (o.No g r (Ψ u) w j * o.logP g r dpsi w j) u := by
  refine ((logP_deriv g o r hS h w j hj).exp.const_mul (o.weight w * o.Nbulk)).congr_deriv ?_
  unfold Orient.No; ring

theorem gasOrient_grad (hS : g.S.Pos) (hdet : g.dV * nr g.S = g.detR) (hm : 0 < o.mult0) (hl : ∀ w, (o.disp w 0).length = o.mult0) (psi : Fin (r.nI n nO) → Field) (ν : ℝ) (hν : 0 < ν)
    (hc : ν = 1 ∨ o.corrPrefac = 0 ∨ ∀ w k, o.dip w k = 0) : GasGrad g o.T o.mult0 (o.gas g r) psi ν := by
  intro (Ψ : ℝ → Fin (r.nI n nO) → Field) (dpsi : Fin (r.nI n nO) → Field) s s' u hΨ hs (hd : ∀ k : Fin (r.nI n nO), ∀ j < nr g.S, HasDerivAt (fun v => Ψ v k j) (dpsi k j) u) hs'
  have hm' : (o.mult0 : ℝ) ≠ 0 := by exact_mod_cast hm.ne'
  have hn : (nr g.S : ℝ) ≠ 0 := by exact_mod_cast (nr_pos g.S hS).ne'
  set L : Fin nO → Field := o.logP g r psi with hL
  set dL : Fin nO → Field := o.logP g r dpsi with hdL
  set No : Fin nO → Field := o.No g r psi with hNo
  set D : Fin nO → Field := fun w j => No w j * dL w j with hD
  set dN : Fin (n + 1) → Field := fun i j => ∑ w, o.move g (o.disp w i) (D w) j with hdN
  set dPk : Fin 3 → Field := fun k j => ∑ w, o.dip w k * D w j with hdPk
  set N : Fin (n + 1) → Field := o.N g r psi with hN
  -- derivatives
  have hLd : ∀ w, ∀ j < nr g.S, HasDerivAt (fun v => o.logP g r (Ψ v) w j) (dL w j) u := fun w j hj => logP_deriv g o r hS hd w j hj
  have hNod : ∀ w, ∀ j < nr g.S, HasDerivAt (fun v => o.No g r (Ψ v) w j) (D w j) u := fun w j hj => by
    have := No_deriv g o r hS hd w j hj
    rw [hΨ] at this
    exact this
  have hNd : ∀ i, ∀ j < nr g.S, HasDerivAt (fun v => o.N g r (Ψ v) i j) (dN i j) u := fun i j hj => HasDerivAt.fun_sum fun w _ => move_deriv g o hS _ (hNod w) j hj
  have hPd : ∀ k, ∀ j < nr g.S, HasDerivAt (fun v => o.P g r (Ψ v) k j) (dPk k j) u := fun k j hj => HasDerivAt.fun_sum fun w _ => (hNod w j hj).const_mul _
  have hXd : ∀ i, ∀ j < nr g.S, HasDerivAt (fun v => s v * o.N g r (Ψ v) i j) (s' * N i j + ν * dN i j) u := fun i j hj => by
    have := hs'.mul (hNd i j hj)
    rw [hs, hΨ] at this
    exact this
  have hlog : HasDerivAt (fun v => o.T * Real.log (s v) / (o.mult0 : ℝ)) (o.T * (s' / ν) / o.mult0) u := by
    have := ((hs'.log (by rw [hs]; exact hν.ne')).const_mul o.T).div_const (o.mult0 : ℝ)
    rw [hs] at this
    exact this
  set dS : ℝ := ∑ w, g.dV * (dotF g (D w) (L w) + sumF g (D w)) with hdS
  have hSd : HasDerivAt (fun v => o.S g r (Ψ v)) dS u := by
    refine HasDerivAt.fun_sum fun w _ => ?_
    refine ((dotF_deriv g (hNod w) (hLd w)).const_mul g.dV).congr_deriv ?_
    rw [hΨ]
    rfl
  set C : ℝ := ∑ k, dotF g (o.EcorrP g r psi k) (dPk k) with hC
  have hEd : HasDerivAt (fun v => o.Ecorr g r (Ψ v)) (g.dV * C) u := by
    unfold Orient.Ecorr
    simp only [EcorrP_eq]
    have h1 : HasDerivAt (fun v => ∑ k, dotF g (corrK g o (o.P g r (Ψ v) k)) (o.P g r (Ψ v) k)) (∑ k, 2 * dotF g (corrK g o (o.P g r psi k)) (dPk k)) u := by
      refine HasDerivAt.fun_sum fun k _ => ?_
      refine (dotF_deriv g (fun j _ => corrK_deriv g o (hPd k) j) (hPd k)).congr_deriv ?_
      rw [hΨ, show dotF g (corrK g o (dPk k)) (o.P g r psi k) = dotF g (corrK g o (o.P g r psi k)) (dPk k) from kernel_symm g _ _ _]
      ring
    refine (h1.const_mul (0.5 * g.dV)).congr_deriv ?_
    rw [hC, ← Finset.mul_sum]
    simp only [EcorrP_eq]
    ring
  refine ⟨dN, fun k => sumF g (dPk k) / nr g.S, ∑ i, g.dV * dotF g (fun j => s' * N i j + ν * dN i j) (o.V i) - (o.T + o.mu) * (g.dV * sumF g (fun j => s' * N 0 j + ν * dN 0 j)) * (1 / o.mult0)
      + (s' * (o.T * o.S g r psi + o.Ecorr g r psi) + ν * (o.T * dS + g.dV * C))
      + (g.dV * sumF g (fun j => s' * N 0 j + ν * dN 0 j) * (o.T * Real.log ν / o.mult0) + g.dV * sumF g (fun j => ν * N 0 j) * (o.T * (s' / ν) / o.mult0)), hNd, ?_, ?_, ?_⟩
  · exact fun k => (sumF_deriv g (hPd k)).div_const _
  · intro X hX
    have hf : HasDerivAt (fun v => (∑ i, g.dV * dotF g (fun j => s v * o.N g r (Ψ v) i j) (o.V i) - (o.T + o.mu) * (g.dV * sumF g fun j => s v * o.N g r (Ψ v) 0 j) * (1 / (o.mult0 : ℝ))
        + s v * (o.T * o.S g r (Ψ v) + o.Ecorr g r (Ψ v))) + g.dV * sumF g (fun j => s v * o.N g r (Ψ v) 0 j) * (o.T * Real.log (s v) / (o.mult0 : ℝ))) _ u :=
      (((HasDerivAt.fun_sum fun i _ => (dotF_deriv g (hXd i) (y' := fun _ => 0) fun j _ => hasDerivAt_const u (o.V i j)).const_mul g.dV).sub
        (((sumF_deriv g (hXd 0)).const_mul g.dV).const_mul (o.T + o.mu) |>.mul_const (1 / (o.mult0 : ℝ)))).add (hs'.mul ((hSd.const_mul o.T).add hEd))).add
        (((sumF_deriv g (hXd 0)).const_mul g.dV).mul hlog)
    have he : (fun v => (o.gas g r).energy (Ψ v) (X v) (s v) + integ g (X v 0) * (o.T * Real.log (s v) / (o.mult0 : ℝ))) =ᶠ[𝓝 u]
        fun v => (∑ i, g.dV * dotF g (fun j => s v * o.N g r (Ψ v) i j) (o.V i) - (o.T + o.mu) * (g.dV * sumF g fun j => s v * o.N g r (Ψ v) 0 j) * (1 / (o.mult0 : ℝ))
        + s v * (o.T * o.S g r (Ψ v) + o.Ecorr g r (Ψ v))) + g.dV * sumF g (fun j => s v * o.N g r (Ψ v) 0 j) * (o.T * Real.log (s v) / (o.mult0 : ℝ)) := by
      filter_upwards [hX] with v hv
      have h0 : ∀ i, ∀ j < nr g.S, X v i j = s v * o.N g r (Ψ v) i j := hv
      have h1 : sumF g (X v 0) = sumF g fun j => s v * o.N g r (Ψ v) 0 j := Finset.sum_congr rfl fun j hj => h0 0 j (Finset.mem_range.1 hj)
      have h2 : ∀ i, dotF g (X v i) (o.V i) = dotF g (fun j => s v * o.N g r (Ψ v) i j) (o.V i) := fun i => dotF_congr g (h0 i) fun _ _ => rfl
      simp only [Orient.gas, integ_eq, h1, h2]
    refine (hf.congr_of_eventuallyEq he).congr_deriv ?_
    have z : ∀ x : Field, dotF g x (fun _ => 0) = 0 := fun x => by simp [dotF]
    simp only [hs, hΨ, z, add_zero, hN, Pi.add_apply]
  · intro X A B a _
    set Φ : Fin (n + 1) → Field := fun i j => A i j + (o.gas g r).addN psi i j + (if i = 0 then o.T * Real.log ν / o.mult0 else 0) with hΦ
    set Φ' : Fin (n + 1) → Field := fun i j => Φ i j + (if i = 0 then a else 0) with hΦ'
    -- pairing with the changes of the site densities
    have F1 : ∀ Y : Fin (n + 1) → Field, ∑ w, ∑ i, dotF g (o.move g (back (o.disp w i)) (Y i)) (D w) = ∑ i, dotF g (Y i) (dN i) := by
      intro Y
      rw [Finset.sum_comm]
      refine Finset.sum_congr rfl fun i _ => ?_
      rw [hdN, dotF_sum_right]
      refine Finset.sum_congr rfl fun w _ => ?_
      rw [move_adj g o hS, back_back]
    have F2 : ∑ k, dotF g ((o.gas g r).conv psi X Φ' B ν k) (dpsi k) = ν * ∑ w, dotF g (o.PhiNo g r psi Φ' B ν w) (D w) := by
      have := rep_dual g o r hS (fun w j => (ν * No w j) * o.PhiNo g r psi Φ' B ν w j) dpsi
      refine this.symm.trans ?_
      rw [Finset.mul_sum]
      refine Finset.sum_congr rfl fun w _ => ?_
      simp only [dotF, Finset.mul_sum, hD]
      exact Finset.sum_congr rfl fun j _ => by ring
    have F3 : ∑ w, dotF g (o.PhiNo g r psi Φ' B ν w) (D w) = ∑ i, dotF g (Φ' i) (dN i) + o.T * ∑ w, dotF g (D w) (L w) + ν * C + ∑ k, B k * sumF g (dPk k) := by
      rw [← F1 Φ', hC]
      have e : ∀ w, dotF g (o.PhiNo g r psi Φ' B ν w) (D w) = ∑ i, dotF g (o.move g (back (o.disp w i)) (Φ' i)) (D w) + o.T * dotF g (D w) (L w)
          + ν * (∑ k, o.dip w k * dotF g (o.EcorrP g r psi k) (D w)) + ∑ k, B k * (o.dip w k * sumF g (D w)) := by
        intro w
        have e0 : o.PhiNo g r psi Φ' B ν w = fun j => ((∑ i, o.move g (back (o.disp w i)) (Φ' i) j) + o.T * L w j) + ((∑ k, o.dip w k * (ν * o.EcorrP g r psi k j)) + ∑ k, o.dip w k * B k) := rfl
        rw [e0, dotF_add_left, dotF_add_left, dotF_add_left, dotF_sum_left, dotF_sum_left, dotF_smul_left, dotF_const_left, dotF_comm g (L w), Finset.sum_mul, Finset.mul_sum]
        simp only [dotF_smul_left]
        rw [show ∑ k, o.dip w k * B k * sumF g (D w) = ∑ k, B k * (o.dip w k * sumF g (D w)) from Finset.sum_congr rfl fun k _ => by ring,
          show ∑ k, o.dip w k * (ν * dotF g (o.EcorrP g r psi k) (D w)) = ∑ k, ν * (o.dip w k * dotF g (o.EcorrP g r psi k) (D w)) from Finset.sum_congr rfl fun k _ => by ring]
        ring
      rw [Finset.sum_congr rfl fun w _ => e w]
      simp only [Finset.sum_add_distrib]
      have e1 : ∑ w, ν * ∑ k, o.dip w k * dotF g (o.EcorrP g r psi k) (D w) = ν * ∑ k, dotF g (o.EcorrP g r psi k) (dPk k) := by
        rw [← Finset.mul_sum, Finset.sum_comm]
        congr 1
        refine Finset.sum_congr rfl fun k _ => ?_
        rw [hdPk, dotF_sum_right]
        exact Finset.sum_congr rfl fun w _ => (dotF_smul_right g _ _ _).symm
      have e2 : ∑ w, ∑ k, B k * (o.dip w k * sumF g (D w)) = ∑ k, B k * sumF g (dPk k) := by
        rw [Finset.sum_comm]
        refine Finset.sum_congr rfl fun k _ => ?_
        rw [← Finset.mul_sum]
        congr 1
        simp only [hdPk, sumF, Finset.mul_sum]
        exact Finset.sum_comm
      rw [e1, e2, ← Finset.mul_sum]
    have F5 : sumF g (dN 0) = o.mult0 * ∑ w, sumF g (D w) := by
      have : sumF g (dN 0) = ∑ w, sumF g (o.move g (o.disp w 0) (D w)) := by
        simp only [hdN, sumF]; exact Finset.sum_comm
      rw [this, Finset.mul_sum]
      exact Finset.sum_congr rfl fun w _ => by rw [move_sum g o hS, hl w]
    have F6 : ν * C = C := by
      rcases hc with h | h | h
      · rw [h, one_mul]
      · have : C = 0 := by
          refine Finset.sum_eq_zero fun k _ => ?_
          refine Finset.sum_eq_zero fun j _ => ?_
          have : o.EcorrP g r psi k j = 0 := by
            unfold Orient.EcorrP fftI
            refine Finset.sum_eq_zero fun i _ => ?_
            simp [wMul, h]
          rw [this, zero_mul]
        rw [this, mul_zero]
      · have : C = 0 := by
          refine Finset.sum_eq_zero fun k _ => ?_
          refine Finset.sum_eq_zero fun j _ => ?_
          have : dPk k j = 0 := Finset.sum_eq_zero fun w _ => by rw [h w k, zero_mul]
          rw [this, mul_zero]
        rw [this, mul_zero]
    -- pairing with the potentials
    have F4 : ∀ (Y : Fin (n + 1) → Field) (b : ℝ), ∑ i, dotF g (fun j => A i j + (o.gas g r).addN psi i j + (if i = 0 then o.T * Real.log ν / o.mult0 else 0) + (if i = 0 then b else 0)) (Y i)
        = ∑ i, dotF g (A i) (Y i) + ∑ i, dotF g (Y i) (o.V i) + (o.T * Real.log ν / o.mult0 + b - o.mu * (1 / o.mult0)) * sumF g (Y 0) := by
      intro Y b
      have e : ∀ i, dotF g (fun j => A i j + (o.gas g r).addN psi i j + (if i = 0 then o.T * Real.log ν / o.mult0 else 0) + (if i = 0 then b else 0)) (Y i)
          = dotF g (A i) (Y i) + dotF g (Y i) (o.V i) + (if i = 0 then (o.T * Real.log ν / o.mult0 + b - o.mu * (1 / o.mult0)) * sumF g (Y 0) else 0) := by
        intro i
        have e0 : (fun j => A i j + (o.gas g r).addN psi i j + (if i = 0 then o.T * Real.log ν / o.mult0 else 0) + (if i = 0 then b else 0))
            = fun j => (A i j + o.V i j) + (if i = 0 then (o.T * Real.log ν / o.mult0 + b - o.mu * (1 / o.mult0)) else 0) := by
          funext j
          show A i j + (o.V i j - (if i = 0 then o.mu * (1 / o.mult0) else 0)) + _ + _ = _
          split_ifs <;> ring
        rw [e0, dotF_add_left, dotF_add_left, dotF_const_left, dotF_comm g (o.V i)]
        split_ifs with h
        · rw [h]
        · ring
      rw [Finset.sum_congr rfl fun i _ => e i, Finset.sum_add_distrib, Finset.sum_add_distrib, Finset.sum_ite_eq' Finset.univ (0 : Fin (n + 1)), if_pos (Finset.mem_univ _)]
    have F4a := F4 dN a
    have F4b := F4 N 0
    simp only [ite_self, add_zero] at F4b
    have eΦ' : ∀ i, Φ' i = fun j => A i j + (o.gas g r).addN psi i j + (if i = 0 then o.T * Real.log ν / o.mult0 else 0) + (if i = 0 then a else 0) := fun i => rfl
    simp only [← eΦ'] at F4a
    have G1 : ∑ i, dotF g (A i) (fun j => s' * N i j + ν * dN i j) = s' * ∑ i, dotF g (A i) (N i) + ν * ∑ i, dotF g (A i) (dN i) := by
      simp only [dotF_add_right, dotF_smul_right, Finset.sum_add_distrib, ← Finset.mul_sum]
    have G2 : ∑ i, g.dV * dotF g (fun j => s' * N i j + ν * dN i j) (o.V i) = g.dV * (s' * ∑ i, dotF g (N i) (o.V i) + ν * ∑ i, dotF g (dN i) (o.V i)) := by
      simp only [dotF_add_left, dotF_smul_left, Finset.sum_add_distrib, ← Finset.mul_sum]
    have G3 : sumF g (fun j => s' * N 0 j + ν * dN 0 j) = s' * sumF g (N 0) + ν * sumF g (dN 0) := by
      simp only [sumF, Finset.sum_add_distrib, Finset.mul_sum]
    have G4 : ∑ j ∈ Finset.range (nr g.S), ν * dN 0 j = ν * sumF g (dN 0) := by simp only [sumF, Finset.mul_sum]
    have G5 : ∑ k, B k * (s' * o.P0 g r psi k + ν * (sumF g (dPk k) / nr g.S)) = s' * (∑ k, o.P0 g r psi k * B k) + ν / nr g.S * ∑ k, B k * sumF g (dPk k) := by
      rw [Finset.mul_sum, Finset.mul_sum, ← Finset.sum_add_distrib]
      exact Finset.sum_congr rfl fun k _ => by ring
    have G6 : ∑ i, dotF g (N i) (Φ i) = ∑ i, dotF g (fun j => A i j + (o.gas g r).addN psi i j + (if i = 0 then o.T * Real.log ν / o.mult0 else 0)) (N i) :=
      Finset.sum_congr rfl fun i _ => dotF_comm g _ _
    have G7 : dS = g.dV * (∑ w, dotF g (D w) (L w) + ∑ w, sumF g (D w)) := by rw [hdS, ← Finset.mul_sum, Finset.sum_add_distrib]
    have key : g.dV * (∑ i, dotF g (A i) fun j => s' * N i j + ν * dN i j) + g.detR * (∑ k, B k * (s' * o.P0 g r psi k + ν * (sumF g (dPk k) / nr g.S)))
        + (∑ i, g.dV * dotF g (fun j => s' * N i j + ν * dN i j) (o.V i) - (o.T + o.mu) * (g.dV * sumF g (fun j => s' * N 0 j + ν * dN 0 j)) * (1 / o.mult0)
          + (s' * (o.T * o.S g r psi + o.Ecorr g r psi) + ν * (o.T * dS + g.dV * C))
          + (g.dV * sumF g (fun j => s' * N 0 j + ν * dN 0 j) * (o.T * Real.log ν / o.mult0) + g.dV * sumF g (fun j => ν * N 0 j) * (o.T * (s' / ν) / o.mult0)))
        + a * (g.dV * ∑ j ∈ Finset.range (nr g.S), ν * dN 0 j)
        = g.dV * (∑ k, dotF g ((o.gas g r).conv psi X Φ' B ν k) (dpsi k))
          + s' * ((o.T * o.S g r psi + o.Ecorr g r psi) + g.dV * (∑ i, dotF g (N i) (Φ i)) + g.detR * ∑ k, o.P0 g r psi k * B k) := by
      rw [F2, F3, F4a, G6, F4b, G1, G2, G3, G4, G5, G7, sumF_smul, F6, ← hdet]
      have F5' : ∑ w, sumF g (D w) = sumF g (dN 0) / o.mult0 := by rw [F5]; field_simp
      rw [F5']
      generalize ∑ i, dotF g (A i) (N i) = x1
      generalize ∑ i, dotF g (A i) (dN i) = x2
      generalize ∑ i, dotF g (N i) (o.V i) = x3
      generalize ∑ i, dotF g (dN i) (o.V i) = x4
      generalize sumF g (N 0) = x5
      generalize sumF g (dN 0) = x6
      generalize ∑ w, dotF g (D w) (L w) = x7
      generalize ∑ k, B k * sumF g (dPk k) = x8
      generalize ∑ k, o.P0 g r psi k * B k = x9
      have hν' := hν.ne'
      field_simp
      ring
    exact key

end
end Jdftx.Fluid
