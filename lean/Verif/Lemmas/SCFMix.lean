import Verif.Lemmas.SCF
import Verif.Lemmas.FluidBulk
import Verif.Props.SpinDiag

/-!
# Lemmas for C107: inner product, electron number, coefficients, spin rotations
-/
namespace Jdftx.SCF
open Box ExCorr Cavity
open scoped ComplexConjugate
open scoped Matrix
noncomputable section

variable (g : Grid) (p : Params) {m : Mode} {nRho : ℕ}

/-! ### Inner product -/

/-- Inner product with the metric. -/
def form (x y : Var m nRho) : ℝ := dot g p x (applyMetric g p y)

theorem form_eq (x y : Var m nRho) : form g p x y = g.dV * (∑ s, ∑ j ∈ Finset.range (nr g.S), x.1 s j * conv g (diisMetric g p) (y.1 s) j) +
    (if p.mixTau then g.dV * (∑ s, ∑ j ∈ Finset.range (nr g.S), x.2.1 s j * conv g (diisMetric g p) (y.2.1 s) j) else 0) +
      if p.hasU then ∑ i, (conj (x.2.2 i) * y.2.2 i).re else 0 := by
  unfold form dot applyMetric dotFields
  by_cases h1 : p.mixTau <;> by_cases h2 : p.hasU <;> simp [h1, h2]

theorem form_symm (hS : g.S.Pos) (x y : Var m nRho) : form g p x y = form g p y x := by
  rw [form_eq, form_eq]
  have e1 : ∀ a b : Fin (nIn m) → Field, (∑ s, ∑ j ∈ Finset.range (nr g.S), a s j * conv g (diisMetric g p) (b s) j) = ∑ s, ∑ j ∈ Finset.range (nr g.S), b s j * conv g (diisMetric g p) (a s) j :=
    fun a b => Finset.sum_congr rfl fun s _ => conv_symm g hS _ _ _
  have e2 : (∑ i, (conj (x.2.2 i) * y.2.2 i).re) = ∑ i, (conj (y.2.2 i) * x.2.2 i).re := Finset.sum_congr rfl fun i _ => by
    simp only [Complex.mul_re, Complex.conj_re, Complex.conj_im]; ring
  rw [e1 x.1, e1 x.2.1, e2]

theorem form_add (x y z : Var m nRho) : form g p (x + y) z = form g p x z + form g p y z := by
  simp only [form_eq]
  have e1 : ∀ a b c : Fin (nIn m) → Field, (∑ s, ∑ j ∈ Finset.range (nr g.S), (a + b) s j * conv g (diisMetric g p) (c s) j) =
      (∑ s, ∑ j ∈ Finset.range (nr g.S), a s j * conv g (diisMetric g p) (c s) j) + ∑ s, ∑ j ∈ Finset.range (nr g.S), b s j * conv g (diisMetric g p) (c s) j := by
    intro a b c
    simp only [Pi.add_apply, add_mul, Finset.sum_add_distrib]
  have e2 : (∑ i, (conj ((x + y).2.2 i) * z.2.2 i).re) = (∑ i, (conj (x.2.2 i) * z.2.2 i).re) + ∑ i, (conj (y.2.2 i) * z.2.2 i).re := by
    rw [← Finset.sum_add_distrib]
    refine Finset.sum_congr rfl fun i _ => ?_
    simp only [Prod.snd_add, Pi.add_apply, map_add, add_mul, Complex.add_re]
  rw [show (x + y).1 = x.1 + y.1 from rfl, show (x + y).2.1 = x.2.1 + y.2.1 from rfl, e1, e1, e2]
  split <;> split <;> ring

theorem form_smul (c : ℝ) (x z : Var m nRho) : form g p (c • x) z = c * form g p x z := by
  simp only [form_eq]
  have e1 : ∀ a b : Fin (nIn m) → Field, (∑ s, ∑ j ∈ Finset.range (nr g.S), (c • a) s j * conv g (diisMetric g p) (b s) j) =
      c * ∑ s, ∑ j ∈ Finset.range (nr g.S), a s j * conv g (diisMetric g p) (b s) j := by
    intro a b
    simp only [Pi.smul_apply, smul_eq_mul, Finset.mul_sum, mul_assoc]
  have e2 : (∑ i, (conj ((c • x).2.2 i) * z.2.2 i).re) = c * ∑ i, (conj (x.2.2 i) * z.2.2 i).re := by
    rw [Finset.mul_sum]
    refine Finset.sum_congr rfl fun i _ => ?_
    simp only [Prod.smul_snd, Pi.smul_apply, Complex.real_smul, map_mul, Complex.conj_ofReal, mul_assoc, Complex.re_ofReal_mul]
  rw [show (c • x).1 = c • x.1 from rfl, show (c • x).2.1 = c • x.2.1 from rfl, e1, e1, e2]
  split <;> split <;> ring

theorem form_sum_left {n : ℕ} (a : Fin n → ℝ) (r : Fin n → Var m nRho) (z : Var m nRho) : form g p (∑ j, a j • r j) z = ∑ j, a j * form g p (r j) z := by
  have h : ∀ t : Finset (Fin n), form g p (∑ j ∈ t, a j • r j) z = ∑ j ∈ t, a j * form g p (r j) z := by
    intro t
    induction t using Finset.induction_on with
    | empty =>
      rw [Finset.sum_empty, Finset.sum_empty]
      have := form_smul g p 0 (0 : Var m nRho) z
      rwa [zero_smul, zero_mul] at this
    | insert i t hi ih => rw [Finset.sum_insert hi, Finset.sum_insert hi, form_add, form_smul, ih]
  exact h _

theorem form_sum (hS : g.S.Pos) {n : ℕ} (a b : Fin n → ℝ) (r : Fin n → Var m nRho) :
    form g p (∑ j, a j • r j) (∑ k, b k • r k) = ∑ j, a j * ∑ k, form g p (r j) (r k) * b k := by
  rw [form_sum_left]
  refine Finset.sum_congr rfl fun j _ => ?_
  rw [form_symm g p hS, form_sum_left]
  congr 1
  exact Finset.sum_congr rfl fun k _ => by rw [form_symm g p hS, mul_comm]

theorem form_self (hg : GridValid g) (hp : ParamsValid p) (x : Var m nRho) : 0 ≤ form g p x x ∧ (form g p x x = 0 → Same g p x 0) := by
  rw [form_eq]
  have hK := metric_pos g p hg hp
  have h1 : ∀ a : Fin (nIn m) → Field, 0 ≤ g.dV * (∑ s, ∑ j ∈ Finset.range (nr g.S), a s j * conv g (diisMetric g p) (a s) j) ∧
      (g.dV * (∑ s, ∑ j ∈ Finset.range (nr g.S), a s j * conv g (diisMetric g p) (a s) j) = 0 → ∀ s, ∀ j < nr g.S, a s j = 0) := by
    intro a
    have h0 : ∀ s ∈ Finset.univ, 0 ≤ ∑ j ∈ Finset.range (nr g.S), a s j * conv g (diisMetric g p) (a s) j := fun s _ => (conv_nonneg g hg.pos _ hK (a s)).1
    refine ⟨mul_nonneg hg.vol.le (Finset.sum_nonneg h0), fun h s => ?_⟩
    have := (Finset.sum_eq_zero_iff_of_nonneg h0).1 ((mul_eq_zero.1 h).resolve_left hg.vol.ne') s (Finset.mem_univ s)
    exact (conv_nonneg g hg.pos _ hK (a s)).2 this
  have e2 : ∀ i, (conj (x.2.2 i) * x.2.2 i).re = Complex.normSq (x.2.2 i) := fun i => by rw [← Complex.normSq_eq_conj_mul_self, Complex.ofReal_re]
  have h2 : 0 ≤ ∑ i, (conj (x.2.2 i) * x.2.2 i).re ∧ ((∑ i, (conj (x.2.2 i) * x.2.2 i).re) = 0 → ∀ i, x.2.2 i = 0) := by
    simp only [e2]
    refine ⟨Finset.sum_nonneg fun i _ => Complex.normSq_nonneg _, fun h i => ?_⟩
    exact Complex.normSq_eq_zero.1 ((Finset.sum_eq_zero_iff_of_nonneg fun i _ => Complex.normSq_nonneg _).1 h i (Finset.mem_univ i))
  have a1 := h1 x.1
  have a2 := h1 x.2.1
  refine ⟨?_, fun h => ?_⟩
  · split <;> split <;> linarith
  · by_cases ht : p.mixTau <;> by_cases hu : p.hasU <;> simp only [ht, hu, if_true, if_false, Bool.false_eq_true] at h
    all_goals refine ⟨a1.2 (by linarith), fun h' => ?_, fun h' => ?_⟩
    all_goals first | exact absurd h' ht | exact absurd h' hu | exact a2.2 (by linarith) | exact h2.2 (by linarith)

/-! ### Electron number -/

/-- The first component. -/
def first (m : Mode) : Fin (nIn m) := ⟨0, by cases m <;> simp⟩

theorem electrons_eq (v : Var m nRho) : electrons g v = g.dV * ∑ j ∈ Finset.range (nr g.S), v.1 (first m) j := by
  unfold electrons
  congr 1
  refine Finset.sum_congr rfl fun j _ => ?_
  cases m
  · rfl
  · show 0.5 * (v.1 0 j + v.1 1 j) + 0.5 * (v.1 0 j - v.1 1 j) = v.1 0 j
    ring
  · show 0.5 * (v.1 0 j + v.1 1 j) + 0.5 * (v.1 0 j - v.1 1 j) = v.1 0 j
    ring

theorem electrons_add (x y : Var m nRho) : electrons g (x + y) = electrons g x + electrons g y := by
  simp only [electrons_eq, Prod.fst_add, Pi.add_apply, Finset.sum_add_distrib, mul_add]

theorem electrons_smul (c : ℝ) (x : Var m nRho) : electrons g (c • x) = c * electrons g x := by
  simp only [electrons_eq, Prod.smul_fst, Pi.smul_apply, smul_eq_mul, ← Finset.mul_sum]
  ring

theorem electrons_zero : electrons g (0 : Var m nRho) = 0 := by
  have := electrons_smul g 0 (0 : Var m nRho)
  rwa [zero_smul, zero_mul] at this

theorem conv_sum (hS : g.S.Pos) (K : ℕ → ℝ) (x : Field) : ∑ j ∈ Finset.range (nr g.S), conv g K x j = K 0 * ∑ j ∈ Finset.range (nr g.S), x j := by
  have h := conv_symm g hS K (fun _ => 1) x
  simp only [one_mul] at h
  rw [h, Finset.mul_sum]
  refine Finset.sum_congr rfl fun j _ => ?_
  have : conv g K (fun _ => 1) j = K 0 * 1 := Fluid.fftI_uniform g hS (Fluid.uniform_wMul g (Fluid.fftJ_uniform g hS 1 _ fun _ _ => rfl) K) j
  rw [this]
  ring

theorem electrons_precondition (hS : g.S.Pos) (v : Var m nRho) : electrons g (precondition g p v) = kerkerMix g p 0 * electrons g v := by
  rw [electrons_eq, electrons_eq]
  have : ∀ j, (precondition g p v).1 (first m) j = conv g (kerkerMix g p) (v.1 (first m)) j := fun j => by
    simp [precondition, enhance, first]
  simp only [this]
  rw [conv_sum g hS]
  ring

theorem electrons_sum (l : List (Var m nRho)) : electrons g l.sum = (l.map (electrons g)).sum := by
  induction l with
  | nil => simpa using electrons_zero g
  | cons x l ih => rw [List.sum_cons, electrons_add, ih, List.map_cons, List.sum_cons]

theorem electrons_mixed (hS : g.S.Pos) (N : ℝ) (s : Pulay.PState ℝ (Var m nRho)) (hl : s.vars.length = s.ress.length) (hv : ∀ v ∈ s.vars, electrons g v = N) (hr : ∀ v ∈ s.ress, electrons g v = 0)
    (hdet : IsUnit (Pulay.bordered s).det) : electrons g (Pulay.mixed (env g p) s (Pulay.coeffs s)) = N := by
  unfold Pulay.mixed
  rw [electrons_sum, List.map_map]
  have h1 : ∀ j : Fin s.ress.length, electrons g (Pulay.coeffs s j • s.vars.getD j 0 + Pulay.coeffs s j • (env g p).precond (s.ress.getD j 0)) = Pulay.coeffs s j * N := by
    intro j
    have hj : j.val < s.vars.length := by rw [hl]; exact j.2
    have ev : electrons g (s.vars.getD j 0) = N := by
      rw [List.getD_eq_getElem?_getD, List.getElem?_eq_getElem hj, Option.getD_some]
      exact hv _ (List.getElem_mem hj)
    have er : electrons g (s.ress.getD j 0) = 0 := by
      rw [List.getD_eq_getElem?_getD, List.getElem?_eq_getElem j.2, Option.getD_some]
      exact hr _ (List.getElem_mem j.2)
    rw [electrons_add, electrons_smul, electrons_smul, ev, show (env g p).precond = precondition g p from rfl, electrons_precondition g p hS, er]
    ring
  rw [show ((electrons g) ∘ fun j : Fin s.ress.length => Pulay.coeffs s j • s.vars.getD j 0 + Pulay.coeffs s j • (env g p).precond (s.ress.getD j 0)) = fun j => Pulay.coeffs s j * N from funext h1]
  have h2 := (Pulay.C40_coefficients s hdet).1
  rw [← List.ofFn_eq_map, List.sum_ofFn, ← Finset.sum_mul, h2, one_mul]

/-! ### Rotations of the spin axes -/

/-- Spin matrix of mixed components at a point. -/
def sm (a : Fin 4 → Field) (j : ℕ) : Matrix (Fin 2) (Fin 2) ℂ := SpinDiag.spinMatrix (spinAt (toSpin .noncollinear a) j)

theorem sm_eq (a : Fin 4 → Field) (j : ℕ) : sm a j = !![(0.5 * (a 0 j + a 1 j) : ℂ), 0.5 * a 2 j - 0.5 * a 3 j * Complex.I; 0.5 * a 2 j + 0.5 * a 3 j * Complex.I, 0.5 * (a 0 j - a 1 j)] := by
  ext i k
  fin_cases i <;> fin_cases k <;> simp [sm, SpinDiag.spinMatrix, spinAt, toSpin]
  ring

theorem sm_trace (a : Fin 4 → Field) (j : ℕ) : (sm a j).trace = a 0 j := by
  rw [sm_eq]
  simp [Matrix.trace, Fin.sum_univ_two]
  ring

theorem sm_add (a b : Fin 4 → Field) (c d : ℝ) (j : ℕ) : sm (c • a + d • b) j = (c : ℂ) • sm a j + (d : ℂ) • sm b j := by
  simp only [sm_eq]
  ext i k
  fin_cases i <;> fin_cases k <;> simp <;> ring

theorem sm_lin (W : ℕ → ℝ) (n : ℕ) (c : ℝ) (a b : Fin 4 → Field) (j : ℕ) (h0 : b 0 j = ∑ j' ∈ Finset.range n, W j' * a 0 j') (h1 : ∀ s, s ≠ 0 → b s j = ∑ j' ∈ Finset.range n, W j' * (a s j' * c)) :
    sm b j = ∑ j' ∈ Finset.range n, (W j' : ℂ) • ((c : ℂ) • sm a j' + (((1 - c) * 0.5 : ℝ) : ℂ) • (sm a j').trace • (1 : Matrix (Fin 2) (Fin 2) ℂ)) := by
  have e1 := h1 1 (by decide)
  have e2 := h1 2 (by decide)
  have e3 := h1 3 (by decide)
  simp only [sm_trace]
  ext i k
  rw [Matrix.sum_apply]
  fin_cases i <;> fin_cases k <;> simp only [sm_eq, h0, e1, e2, e3] <;> simp <;>
    simp only [Finset.mul_sum, Finset.sum_mul, ← Finset.sum_add_distrib, ← Finset.sum_sub_distrib] <;> exact Finset.sum_congr rfl fun _ _ => by ring

theorem sm_conv {U : Matrix (Fin 2) (Fin 2) ℂ} (hU : U ∈ Matrix.unitaryGroup (Fin 2) ℂ) (K : ℕ → ℝ) (c : ℝ) (a b a' b' : Fin 4 → Field) (h0 : b 0 = conv g K (a 0))
    (h1 : ∀ s, s ≠ 0 → b s = fun j => conv g K (a s) j * c) (h0' : b' 0 = conv g K (a' 0)) (h1' : ∀ s, s ≠ 0 → b' s = fun j => conv g K (a' s) j * c)
    (h : ∀ j < nr g.S, SpinDiag.Rotated U (spinAt (toSpin .noncollinear a) j) (spinAt (toSpin .noncollinear a') j)) (j : ℕ) :
    SpinDiag.Rotated U (spinAt (toSpin .noncollinear b) j) (spinAt (toSpin .noncollinear b') j) := by
  have e : ∀ a b : Fin 4 → Field, b 0 = conv g K (a 0) → (∀ s, s ≠ 0 → b s = fun j => conv g K (a s) j * c) → sm b j = ∑ j' ∈ Finset.range (nr g.S),
      ((∑ i ∈ Finset.range (nG g.S), weight g.S i * K i / nr g.S * (conj (chi g.S i j') * chi g.S i j).re : ℝ) : ℂ) •
        ((c : ℂ) • sm a j' + (((1 - c) * 0.5 : ℝ) : ℂ) • (sm a j').trace • (1 : Matrix (Fin 2) (Fin 2) ℂ)) := by
    intro a b h0 h1
    refine sm_lin (fun j' => ∑ i ∈ Finset.range (nG g.S), weight g.S i * K i / nr g.S * (conj (chi g.S i j') * chi g.S i j).re) _ c a b j ?_ ?_
    · rw [h0, conv_eq]
    · intro s hs
      simp only [h1 s hs]
      rw [conv_eq, Finset.sum_mul]
      exact Finset.sum_congr rfl fun _ _ => by ring
  have hU1 : Uᴴ * U = 1 := Matrix.mem_unitaryGroup_iff'.1 hU
  have hU2 : U * Uᴴ = 1 := Matrix.mem_unitaryGroup_iff.1 hU
  show sm b' j = U * sm b j * Uᴴ
  rw [e a b h0 h1, e a' b' h0' h1', Finset.mul_sum, Finset.sum_mul]
  refine Finset.sum_congr rfl fun j' hj => ?_
  have hr : sm a' j' = U * sm a j' * Uᴴ := h j' (Finset.mem_range.1 hj)
  have ht : (sm a' j').trace = (sm a j').trace := SpinDiag.rotated_trace hU1 (h j' (Finset.mem_range.1 hj))
  rw [ht, hr]
  simp only [Matrix.mul_smul, Matrix.smul_mul, Matrix.mul_add, Matrix.add_mul, Matrix.mul_one, hU2]

theorem dot_rotated {U : Matrix (Fin 2) (Fin 2) ℂ} (hU : U ∈ Matrix.unitaryGroup (Fin 2) ℂ) (a b a' b' : Fin 4 → Field)
    (ha : ∀ j < nr g.S, SpinDiag.Rotated U (spinAt (toSpin .noncollinear a) j) (spinAt (toSpin .noncollinear a') j))
    (hb : ∀ j < nr g.S, SpinDiag.Rotated U (spinAt (toSpin .noncollinear b) j) (spinAt (toSpin .noncollinear b') j)) :
    dotFields (m := .noncollinear) g a b = dotFields (m := .noncollinear) g a' b' := by
  have hU1 : Uᴴ * U = 1 := Matrix.mem_unitaryGroup_iff'.1 hU
  unfold dotFields
  rw [Finset.sum_comm, Finset.sum_comm (f := fun s j => a' s j * b' s j)]
  refine Finset.sum_congr rfl fun j hj => ?_
  have h1 := ha j (Finset.mem_range.1 hj)
  have h2 := hb j (Finset.mem_range.1 hj)
  have hd := SpinDiag.rotated_dot hU1 h1 h2
  have ta : (a' 0 j : ℂ) = a 0 j := by rw [← sm_trace, ← sm_trace]; exact SpinDiag.rotated_trace hU1 h1
  have tb : (b' 0 j : ℂ) = b 0 j := by rw [← sm_trace, ← sm_trace]; exact SpinDiag.rotated_trace hU1 h2
  have ta' : a' 0 j = a 0 j := by exact_mod_cast ta
  have tb' : b' 0 j = b 0 j := by exact_mod_cast tb
  have ed : ∀ x y : Fin 4 → Field, SpinDiag.dot (SpinDiag.vectorPart (spinAt (toSpin .noncollinear x) j)) (SpinDiag.vectorPart (spinAt (toSpin .noncollinear y) j)) =
      x 1 j * y 1 j + x 2 j * y 2 j + x 3 j * y 3 j := by
    intro x y
    simp [SpinDiag.dot, SpinDiag.vectorPart, spinAt, toSpin]
    ring
  rw [ed, ed] at hd
  show ∑ s : Fin 4, a s j * b s j = ∑ s : Fin 4, a' s j * b' s j
  rw [Fin.sum_univ_four, Fin.sum_univ_four, ta', tb']
  linarith

end
end Jdftx.SCF
