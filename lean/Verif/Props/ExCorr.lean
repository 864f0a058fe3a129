import Verif.Lemmas.ExCorr
import Verif.Props.LDA
import Mathlib.Tactic.IntervalCases

/-!
# C74: exchange-correlation potentials are the derivatives of the exchange-correlation energy, on every process
-/
namespace Jdftx.ExCorr
open Box SpinDiag
noncomputable section

theorem sigmaAt_eq (g : Grid) (m : Mode) (P : Nat) (hP : 0 < P) (n : Fin (nIn m) → Field) (q : Fin 3) (j : Nat) :
    sigmaAt g m P n q j = ∑ k, sigmaTerm (DnAt g m n k j) q := by
  simp only [sigmaAt, allReduce]
  rw [Finset.sum_comm]
  exact Finset.sum_congr rfl fun k _ => mine_sum 3 P k hP k.2 _

theorem ptAt_eq (g : Grid) (m : Mode) (P : Nat) (hP : 0 < P) (n tau : Fin (nIn m) → Field) (j : Nat) :
    ptAt g m P n tau j = ptAt g m 1 n tau j := by
  simp only [ptAt, sigmaAt_eq g m P hP, sigmaAt_eq g m 1 one_pos]

theorem sigmaTerm_possible {m : Mode} (D : Fin (nCount m) → ℝ) : 0 ≤ sigmaTerm D 0 ∧ 0 ≤ sigmaTerm D 2 ∧
    0 ≤ sigmaTerm D 0 + 2 * sigmaTerm D 1 + sigmaTerm D 2 := by
  have h2 : ∀ D : Fin 2 → ℝ, 0 ≤ sigmaTerm D 0 ∧ 0 ≤ sigmaTerm D 2 ∧ 0 ≤ sigmaTerm D 0 + 2 * sigmaTerm D 1 + sigmaTerm D 2 := by
    intro D
    have e0 : sigmaTerm D 0 = D 0 * D 0 := by simp [sigmaTerm, Fin.sum_univ_two]
    have e1 : sigmaTerm D 1 = D 0 * D 1 := by simp [sigmaTerm, Fin.sum_univ_two]
    have e2 : sigmaTerm D 2 = D 1 * D 1 := by simp [sigmaTerm, Fin.sum_univ_two]
    rw [e0, e1, e2]
    exact ⟨mul_self_nonneg _, mul_self_nonneg _, by nlinarith [mul_self_nonneg (D 0 + D 1)]⟩
  cases m with
  | unpolarized =>
    have e0 : sigmaTerm D 0 = D 0 * D 0 := by simp [sigmaTerm]
    have e1 : sigmaTerm D 1 = 0 := by simp [sigmaTerm]
    have e2 : sigmaTerm D 2 = 0 := by simp [sigmaTerm]
    rw [e0, e1, e2]
    exact ⟨mul_self_nonneg _, le_refl _, by nlinarith [mul_self_nonneg (D 0)]⟩
  | polarized => exact h2 D
  | noncollinear => exact h2 D

/-- The code passes products of gradients to functionals. -/
theorem ptAt_possible (g : Grid) (m : Mode) (P : Nat) (hP : 0 < P) (n tau : Fin (nIn m) → Field) (j : Nat) : (ptAt g m P n tau j).Possible := by
  simp only [Pt.Possible, ptAt, sigmaAt_eq g m P hP]
  refine ⟨Finset.sum_nonneg fun k _ => (sigmaTerm_possible _).1, Finset.sum_nonneg fun k _ => (sigmaTerm_possible _).2.1, ?_⟩
  rw [Finset.mul_sum, ← Finset.sum_add_distrib, ← Finset.sum_add_distrib]
  exact Finset.sum_nonneg fun k _ => (sigmaTerm_possible _).2.2

theorem energy_eq (g : Grid) (m : Mode) (fs : List (Fn (nCount m))) (P : Nat) (hP : 0 < P) (n tau : Fin (nIn m) → Field) :
    energy g m fs P n tau = g.dV * ∑ j ∈ Finset.range (nr g.S), (fs.map fun f => f.e (ptAt g m 1 n tau j)).sum := by
  simp only [energy, allReduce, ← Finset.mul_sum]
  rw [Finset.sum_comm]
  congr 1
  refine Finset.sum_congr rfl fun j hj => ?_
  rw [mine_sum (nr g.S) P j hP (Finset.mem_range.1 hj), ptAt_eq g m P hP]

theorem collected_eq (g : Grid) (m : Mode) (fs : List (Fn (nCount m))) (P : Nat) (hP : 0 < P) (n tau : Fin (nIn m) → Field)
    (c : Pt (nCount m) → ℝ) (j : Nat) (hj : j < nr g.S) :
    collected g m fs P n tau c j = (fs.map fun f => c (f.grad (ptAt g m 1 n tau j))).sum := by
  simp only [collected, allReduce]
  rw [mine_sum (nr g.S) P j hP hj, ptAt_eq g m P hP]

theorem Idag_congr (S : Size) (u v : Field) (h : ∀ j, j < nr S → u j = v j) : Idag S u = Idag S v := by
  funext i
  simp only [Idag]
  exact Finset.sum_congr rfl fun j hj => by rw [h j (Finset.mem_range.1 hj)]

theorem gradPart_eq (g : Grid) (m : Mode) (fs : List (Fn (nCount m))) (P : Nat) (hP : 0 < P) (n tau : Fin (nIn m) → Field)
    (s : Fin (nIn m)) (j : Nat) : gradPart g m fs P n tau s j = ∑ k, Jdag g.S (fun i => -opD g (Idag g.S fun j =>
      backX m (at' n j) (fun s => spatialD g (n s) k j) (E_DnAt g m fs P n tau k j) s) k i) j := by
  simp only [gradPart, Jdag]
  have e : (fun i : Int => ∑ p ∈ Finset.range P, ∑ k : Fin 3, if mine 3 P p k = true then
      -opD g (Idag g.S fun j => backX m (at' n j) (fun s => spatialD g (n s) k j) (E_DnAt g m fs P n tau k j) s) k i else 0)
      = fun i => ∑ k : Fin 3, -opD g (Idag g.S fun j => backX m (at' n j) (fun s => spatialD g (n s) k j) (E_DnAt g m fs P n tau k j) s) k i := by
    funext i
    rw [Finset.sum_comm]
    exact Finset.sum_congr rfl fun k _ => mine_sum 3 P k hP k.2 _
  rw [e, fftI_sum, Finset.mul_sum]

/-- The energy, and the potential for the kinetic energy density, do not depend on the number of processes. Neither does the
potential, on any process, unless spins are noncollinear. -/
theorem C74_processes (g : Grid) (m : Mode) (fs : List (Fn (nCount m))) (P p : Nat) (hP : p < P) (n tau : Fin (nIn m) → Field) :
    energy g m fs P n tau = energy g m fs 1 n tau ∧
    (∀ s, ∀ j < nr g.S, Vtau g m fs P n tau s j = Vtau g m fs 1 n tau s j) ∧
    (m ≠ .noncollinear → ∀ s, ∀ j < nr g.S, Vxc g m fs P p n tau s j = Vxc g m fs 1 0 n tau s j) := by
  have hP0 : 0 < P := by omega
  have hc := collected_eq g m fs P hP0 n tau
  have hc1 := collected_eq g m fs 1 one_pos n tau
  have hEn : ∀ j < nr g.S, E_n g m fs P n tau j = E_n g m fs 1 n tau j := fun j hj => by
    funext s; simp only [E_n, hc _ j hj, hc1 _ j hj]
  have hEs : ∀ j < nr g.S, E_sigma g m fs P n tau j = E_sigma g m fs 1 n tau j := fun j hj => by
    funext s; simp only [E_sigma, hc _ j hj, hc1 _ j hj]
  have hEl : ∀ j < nr g.S, E_lap g m fs P n tau j = E_lap g m fs 1 n tau j := fun j hj => by
    funext s; simp only [E_lap, hc _ j hj, hc1 _ j hj]
  have hEt : ∀ j < nr g.S, E_tau g m fs P n tau j = E_tau g m fs 1 n tau j := fun j hj => by
    funext s; simp only [E_tau, hc _ j hj, hc1 _ j hj]
  refine ⟨by rw [energy_eq _ _ _ _ hP0, energy_eq _ _ _ _ one_pos], fun s j hj => by simp only [Vtau, hEt j hj], fun hm s j hj => ?_⟩
  have hN : ∀ n x E s, backN m n x E s = 0 := by
    cases m with
    | unpolarized => intros; rfl
    | polarized => intros; rfl
    | noncollinear => exact absurd rfl hm
  have hD : ∀ k, ∀ j < nr g.S, E_DnAt g m fs P n tau k j = E_DnAt g m fs 1 n tau k j := fun k j hj => by
    simp only [E_DnAt, hEs j hj]
  have hI : (Idag g.S fun j => backX m (at' n j) (fun s => laplacian g (n s) j) (E_lap g m fs P n tau j) s)
      = Idag g.S fun j => backX m (at' n j) (fun s => laplacian g (n s) j) (E_lap g m fs 1 n tau j) s :=
    Idag_congr _ _ _ fun j hj => by rw [hEl j hj]
  have hI2 : ∀ k, (Idag g.S fun j => backX m (at' n j) (fun s => spatialD g (n s) k j) (E_DnAt g m fs P n tau k j) s)
      = Idag g.S fun j => backX m (at' n j) (fun s => spatialD g (n s) k j) (E_DnAt g m fs 1 n tau k j) s :=
    fun k => Idag_congr _ _ _ fun j hj => by rw [hD k j hj]
  simp only [Vxc, hN, gradPart_eq g m fs P hP0, gradPart_eq g m fs 1 one_pos, hEn j hj, hI, hI2, ite_self, Finset.sum_const_zero]

/-- Sums over functionals. -/
theorem sum_map_mul {α : Type} (l : List α) (a : α → ℝ) (b : ℝ) : (l.map fun x => a x * b).sum = (l.map a).sum * b := by
  induction l with
  | nil => simp
  | cons x l ih => simp [ih, add_mul]

theorem sum_map_add {α : Type} (l : List α) (a b : α → ℝ) : (l.map fun x => a x + b x).sum = (l.map a).sum + (l.map b).sum := by
  induction l with
  | nil => simp
  | cons x l ih => simp only [List.map_cons, List.sum_cons, ih]; ring

theorem sum_map_finset {α β : Type} [Fintype β] (l : List α) (a : α → β → ℝ) :
    (l.map fun x => ∑ y, a x y).sum = ∑ y, (l.map fun x => a x y).sum := by
  induction l with
  | nil => simp
  | cons x l ih => simp only [List.map_cons, List.sum_cons, ih, Finset.sum_add_distrib]

theorem deriv_list {α : Type} (l : List α) (f : α → ℝ → ℝ) (d : α → ℝ) (h : ∀ x ∈ l, HasDerivAt (f x) (d x) 0) :
    HasDerivAt (fun t => (l.map fun x => f x t).sum) (l.map d).sum 0 := by
  induction l with
  | nil => simpa using hasDerivAt_const (0 : ℝ) (0 : ℝ)
  | cons x l ih =>
    simp only [List.map_cons, List.sum_cons]
    exact (h x (by simp)).add (ih fun y hy => h y (by simp [hy]))

/-- If every functional reports its own derivatives at the densities present, and these are positive, then the potentials
returned on every process are the derivative of the energy with respect to the density and the kinetic energy density at
every grid point. For noncollinear spins and functionals of the density gradient this needs a single process. -/
theorem C74_potential_partial (g : Grid) (m : Mode) (fs : List (Fn (nCount m))) (P p : Nat) (hP : p < P)
    (hm : m ≠ .noncollinear ∨ P = 1 ∨ ∀ f ∈ fs, f.Local)
    (n tau dn dtau : Fin (nIn m) → Field)
    (hpos : ∀ s, ∀ j < nr g.S, 0 < toDiag m (at' n j) (at' n j) s)
    (hf : ∀ f ∈ fs, ∀ j < nr g.S, f.Consistent (ptAt g m P n tau j)) :
    HasDerivAt (fun t => energy g m fs P (moved n dn t) (moved tau dtau t))
      (g.dV * ∑ j ∈ Finset.range (nr g.S), ∑ s, (Vxc g m fs P p n tau s j * dn s j + Vtau g m fs P n tau s j * dtau s j)) 0 := by
  have hP0 : 0 < P := by omega
  have m0 : ∀ {K : Nat} (a b : Fin K → Field), moved a b 0 = a := by
    intro K a b; funext s j; simp [moved]
  have hline : ∀ a b : ℝ, HasDerivAt (fun t : ℝ => a + t * b) b 0 := fun a b => by
    simpa using ((hasDerivAt_id (0 : ℝ)).mul_const b).const_add a
  -- derivatives of the arguments
  have hT := fun j => toDiag_deriv m (fun t => at' (moved n dn t) j) (fun t => at' (moved n dn t) j) (fun s => dn s j) (fun s => dn s j)
    (fun s => hline _ _) (fun s => hline _ _)
  have hTau := fun j => toDiag_deriv m (fun t => at' (moved n dn t) j) (fun t => at' (moved tau dtau t) j) (fun s => dn s j) (fun s => dtau s j)
    (fun s => hline _ _) (fun s => hline _ _)
  have hLap := fun j => toDiag_deriv m (fun t => at' (moved n dn t) j) (fun t s => laplacian g (moved n dn t s) j) (fun s => dn s j)
    (fun s => laplacian g (dn s) j) (fun s => hline _ _) (fun s => by
      have := hline (laplacian g (n s) j) (laplacian g (dn s) j)
      simp only [← laplacian_moved] at this
      exact this)
  have hD := fun j k => toDiag_deriv m (fun t => at' (moved n dn t) j) (fun t s => spatialD g (moved n dn t s) k j) (fun s => dn s j)
    (fun s => spatialD g (dn s) k j) (fun s => hline _ _) (fun s => by
      have := hline (spatialD g (n s) k j) (spatialD g (dn s) k j)
      simp only [← spatialD_moved] at this
      exact this)
  choose dT hdT hbT using hT
  choose dTau hdTau hbTau using hTau
  choose dLap hdLap hbLap using hLap
  choose dD hdD hbD using hD
  have hS := fun j k => sigmaTerm_deriv m (fun t => DnAt g m (moved n dn t) k j) (dD j k) (hdD j k)
  choose dS hdS hbS using hS
  simp only [m0] at hbT hbTau hbLap hbD hbS
  -- the energy
  have hE : ∀ j < nr g.S, HasDerivAt (fun t => (fs.map fun f => f.e (ptAt g m 1 (moved n dn t) (moved tau dtau t) j)).sum)
      (fs.map fun f => ∑ s, (f.grad (ptAt g m 1 n tau j)).n s * dT j s + ∑ q, (f.grad (ptAt g m 1 n tau j)).sigma q * ∑ k, dS j k q
        + ∑ s, (f.grad (ptAt g m 1 n tau j)).lap s * dLap j s + ∑ s, (f.grad (ptAt g m 1 n tau j)).tau s * dTau j s).sum 0 := by
    intro j hj
    refine deriv_list fs _ _ fun f hfm => ?_
    have hc := hf f hfm j hj
    rw [ptAt_eq g m P hP0] at hc
    refine hc (fun t => ptAt g m 1 (moved n dn t) (moved tau dtau t) j) ⟨dT j, fun q => ∑ k, dS j k q, dLap j, dTau j⟩ ?_ ?_ ?_ ?_ ?_ ?_
    · simp only [m0]
    · exact fun t => ptAt_possible g m 1 one_pos _ _ j
    · intro s
      have h0 := hpos s j hj
      refine HasDerivAt.congr_of_eventuallyEq (hdT j s) ?_
      have := (hdT j s).continuousAt.eventually (lt_mem_nhds (show 0 < toDiag m (at' (moved n dn 0) j) (at' (moved n dn 0) j) s by rw [m0]; exact h0))
      filter_upwards [this] with t ht
      exact max_eq_left ht.le
    · intro q
      simp only [ptAt, sigmaAt_eq g m 1 one_pos]
      exact HasDerivAt.fun_sum fun k _ => hdS j k q
    · exact hdLap j
    · exact hdTau j
  have hEtot := (HasDerivAt.fun_sum fun j hj => hE j (Finset.mem_range.1 hj)).const_mul g.dV
  simp only [energy_eq g m fs P hP0]
  refine hEtot.congr_deriv ?_
  congr 1
  -- rewrite the derivative point by point
  have key : ∀ j ∈ Finset.range (nr g.S),
      (fs.map fun f => ∑ s, (f.grad (ptAt g m 1 n tau j)).n s * dT j s + ∑ q, (f.grad (ptAt g m 1 n tau j)).sigma q * ∑ k, dS j k q
        + ∑ s, (f.grad (ptAt g m 1 n tau j)).lap s * dLap j s + ∑ s, (f.grad (ptAt g m 1 n tau j)).tau s * dTau j s).sum
      = ∑ s, backSelf m (at' n j) (E_n g m fs P n tau j) s * dn s j
        + (∑ k, ∑ s, backN m (at' n j) (fun s => spatialD g (n s) k j) (E_DnAt g m fs P n tau k j) s * dn s j
          + ∑ k, ∑ s, backX m (at' n j) (fun s => spatialD g (n s) k j) (E_DnAt g m fs P n tau k j) s * spatialD g (dn s) k j)
        + (∑ s, backN m (at' n j) (fun s => laplacian g (n s) j) (E_lap g m fs P n tau j) s * dn s j
          + ∑ s, backX m (at' n j) (fun s => laplacian g (n s) j) (E_lap g m fs P n tau j) s * laplacian g (dn s) j)
        + (∑ s, backN m (at' n j) (at' tau j) (E_tau g m fs P n tau j) s * dn s j
          + ∑ s, backX m (at' n j) (at' tau j) (E_tau g m fs P n tau j) s * dtau s j) := by
    intro j hj
    have hj := Finset.mem_range.1 hj
    have c := fun c => collected_eq g m fs P hP0 n tau c j hj
    simp only [sum_map_add, sum_map_finset, sum_map_mul]
    have e1 : ∑ s, backSelf m (at' n j) (E_n g m fs P n tau j) s * dn s j = ∑ s, E_n g m fs P n tau j s * dT j s := by
      rw [hbT j]
      simp only [backSelf_eq, add_mul, Finset.sum_add_distrib]
    have e2 : ∑ q, E_sigma g m fs P n tau j q * ∑ k, dS j k q
        = ∑ k, ∑ s, backN m (at' n j) (fun s => spatialD g (n s) k j) (E_DnAt g m fs P n tau k j) s * dn s j
          + ∑ k, ∑ s, backX m (at' n j) (fun s => spatialD g (n s) k j) (E_DnAt g m fs P n tau k j) s * spatialD g (dn s) k j := by
      simp only [Finset.mul_sum]
      rw [Finset.sum_comm, ← Finset.sum_add_distrib]
      refine Finset.sum_congr rfl fun k _ => ?_
      rw [hbS j k, ← hbD j k]
      rfl
    rw [e1, ← e2, ← hbLap j, ← hbTau j]
    simp only [E_n, E_sigma, E_lap, E_tau, c]
  rw [Finset.sum_congr rfl key]
  -- what a process adds from its own directions is everything
  have hloc : ∀ j < nr g.S, ∀ s, (∑ k : Fin 3, if mine 3 P p k = true then
        backN m (at' n j) (fun s => spatialD g (n s) k j) (E_DnAt g m fs P n tau k j) s else 0)
      = ∑ k, backN m (at' n j) (fun s => spatialD g (n s) k j) (E_DnAt g m fs P n tau k j) s := by
    intro j hj s
    refine Finset.sum_congr rfl fun k _ => ?_
    rcases hm with hm | hm | hm
    · have hN : ∀ n x E s, backN m n x E s = 0 := by
        cases m with
        | unpolarized => intros; rfl
        | polarized => intros; rfl
        | noncollinear => exact absurd rfl hm
      simp only [hN, ite_self]
    · subst hm
      have : p = 0 := by omega
      subst this
      rw [if_pos (mine_one 3 k k.2)]
    · have h0 : E_DnAt g m fs P n tau k j = fun _ => 0 := by
        have hs0 : E_sigma g m fs P n tau j = fun _ => 0 := by
          funext q
          simp only [E_sigma, collected_eq g m fs P hP0 n tau _ j hj]
          rw [List.map_congr_left (g := fun _ => (0 : ℝ)) fun f hfm => hm f hfm _ _]
          simp
        funext s
        simp [E_DnAt, hs0, E_Dn]
      have hz : ∀ (n x : Fin (nIn m) → ℝ) s, backN m n x (fun _ => 0) s = 0 := by
        cases m with
        | unpolarized => intros; rfl
        | polarized => intros; rfl
        | noncollinear =>
          intro n x s
          simp only [backN, diagonalizeGrad, accum, gradN]
          match s with
          | 0 | 1 | 2 | 3 => simp
      rw [h0, hz, ite_self]
  have hV : ∀ j ∈ Finset.range (nr g.S), ∑ s, (Vxc g m fs P p n tau s j * dn s j + Vtau g m fs P n tau s j * dtau s j)
      = ∑ s, backSelf m (at' n j) (E_n g m fs P n tau j) s * dn s j
        + (∑ k, ∑ s, backN m (at' n j) (fun s => spatialD g (n s) k j) (E_DnAt g m fs P n tau k j) s * dn s j
          + ∑ k, ∑ s, Jdag g.S (fun i => -opD g (Idag g.S fun j => backX m (at' n j) (fun s => spatialD g (n s) k j) (E_DnAt g m fs P n tau k j) s) k i) j * dn s j)
        + (∑ s, backN m (at' n j) (fun s => laplacian g (n s) j) (E_lap g m fs P n tau j) s * dn s j
          + ∑ s, Jdag g.S (fun i => (1 / g.detR : ℝ) * opL g (Idag g.S fun j => backX m (at' n j) (fun s => laplacian g (n s) j)
        (E_lap g m fs P n tau j) s) i) j * dn s j)
        + (∑ s, backN m (at' n j) (at' tau j) (E_tau g m fs P n tau j) s * dn s j
          + ∑ s, backX m (at' n j) (at' tau j) (E_tau g m fs P n tau j) s * dtau s j) := by
    intro j hj
    rw [Finset.sum_comm (s := Finset.univ (α := Fin 3)), Finset.sum_comm (s := Finset.univ (α := Fin 3))]
    simp only [← Finset.sum_add_distrib]
    refine Finset.sum_congr rfl fun s _ => ?_
    simp only [Vxc, Vtau, gradPart_eq g m fs P hP0, hloc j (Finset.mem_range.1 hj)]
    simp only [Finset.sum_mul, add_mul, Finset.sum_add_distrib]
    ring
  rw [Finset.sum_congr rfl hV]
  -- integrate by parts
  have hadj : ∑ j ∈ Finset.range (nr g.S), ∑ k, ∑ s, backX m (at' n j) (fun s => spatialD g (n s) k j) (E_DnAt g m fs P n tau k j) s * spatialD g (dn s) k j
      = ∑ j ∈ Finset.range (nr g.S), ∑ k, ∑ s, Jdag g.S (fun i => -opD g (Idag g.S fun j => backX m (at' n j) (fun s => spatialD g (n s) k j) (E_DnAt g m fs P n tau k j) s) k i) j * dn s j := by
    rw [Finset.sum_comm, Finset.sum_comm (s := Finset.range (nr g.S))]
    refine Finset.sum_congr rfl fun k _ => ?_
    rw [Finset.sum_comm, Finset.sum_comm (s := Finset.range (nr g.S))]
    refine Finset.sum_congr rfl fun s _ => ?_
    exact spatialD_adjoint g (fun j => backX m (at' n j) (fun s => spatialD g (n s) k j) (E_DnAt g m fs P n tau k j) s) (dn s) k
  have hadjL : ∑ j ∈ Finset.range (nr g.S), ∑ s, backX m (at' n j) (fun s => laplacian g (n s) j) (E_lap g m fs P n tau j) s * laplacian g (dn s) j
      = ∑ j ∈ Finset.range (nr g.S), ∑ s, Jdag g.S (fun i => (1 / g.detR : ℝ) * opL g (Idag g.S fun j => backX m (at' n j) (fun s => laplacian g (n s) j)
        (E_lap g m fs P n tau j) s) i) j * dn s j := by
    rw [Finset.sum_comm, Finset.sum_comm (s := Finset.range (nr g.S))]
    refine Finset.sum_congr rfl fun s _ => ?_
    exact laplacian_adjoint g (fun j => backX m (at' n j) (fun s => laplacian g (n s) j) (E_lap g m fs P n tau j) s) (dn s)
  simp only [Finset.sum_add_distrib]
  rw [hadj, hadjL]

/-! ### A functional, a grid and densities -/

/-- The energy density is the square of the gradient of the up density. -/
def gradSquare (k : Nat) : Fn k where
  e := fun x => x.sigma 0
  grad := fun _ => ⟨fun _ => 0, ![1, 0, 0], fun _ => 0, fun _ => 0⟩

theorem gradSquare_consistent (k : Nat) (x : Pt k) : (gradSquare k).Consistent x := by
  intro c c' _ _ _ hs _ _
  refine (hs 0).congr_deriv ?_
  simp [gradSquare, Fin.sum_univ_three]

/-- Four grid points along the third lattice vector. -/
def line4 : Grid := ⟨⟨1, 1, 4⟩, fun a b => if a = 2 ∧ b = 2 then 1 else 0, 4, 1⟩

/-- One cosine wave. -/
def wave : Field := fun j => if j = 0 then 1 else if j = 2 then -1 else 0

/-- A spin texture: the magnetisation turns along the line. -/
def texture : Fin 4 → Field := ![fun j => 6 + wave j, fun _ => 4, wave, fun _ => 0]

theorem texture_at (j : Nat) : at' texture j = ![6 + wave j, 4, wave j, 0] := by
  funext s
  match s with
  | 0 | 1 | 2 | 3 => rfl

theorem diag_pos (n : Spin4) (h0 : 0 < scalarPart n) (h : dot (vectorPart n) (vectorPart n) < scalarPart n ^ 2) (s : Fin 2) :
    0 < diagonalize n n s := by
  have hr := reg_pos n
  have hm : 0 ≤ dot (vectorPart n) (vectorPart n) := by
    simp only [dot]; nlinarith [mul_self_nonneg (vectorPart n 0), mul_self_nonneg (vectorPart n 1), mul_self_nonneg (vectorPart n 2)]
  have hc : (0 : ℝ) < LDA.nCutoff := by norm_num [LDA.nCutoff]
  have hs := Real.sqrt_pos.2 hr
  have hd : dot (vectorPart n) (mHat n) = dot (vectorPart n) (vectorPart n) / Real.sqrt (dot (vectorPart n) (vectorPart n) + LDA.nCutoff) := by
    rw [dot_mHat, normFac]; ring
  have hb : dot (vectorPart n) (mHat n) < scalarPart n := by
    rw [hd, div_lt_iff₀ hs]
    have h2 := Real.mul_self_sqrt hr.le
    generalize Real.sqrt (dot (vectorPart n) (vectorPart n) + LDA.nCutoff) = r at hs h2
    generalize dot (vectorPart n) (vectorPart n) = q at *
    by_contra hh
    push Not at hh
    have h3 : (scalarPart n * r) * (scalarPart n * r) ≤ q * q := mul_self_le_mul_self (by positivity) hh
    have h4 : (scalarPart n * r) * (scalarPart n * r) = scalarPart n ^ 2 * (q + LDA.nCutoff) := by rw [← h2]; ring
    nlinarith
  have hb0 : 0 ≤ dot (vectorPart n) (mHat n) := by rw [hd]; positivity
  match s with
  | 0 => simp only [diagonalize, Matrix.cons_val_zero]; linarith
  | 1 => simp only [diagonalize, Matrix.cons_val_one, Matrix.cons_val_zero]; linarith

theorem texture_pos (s : Fin 2) (j : Nat) (hj : j < nr line4.S) :
    0 < toDiag .noncollinear (at' texture j) (at' texture j) s := by
  have hj : j < 4 := by simpa [line4, nr] using hj
  refine diag_pos _ ?_ ?_ s
  · simp only [texture_at, scalarPart, Matrix.cons_val_zero, Matrix.cons_val_one]
    interval_cases j <;> norm_num [wave]
  · simp only [texture_at, scalarPart, vectorPart, dot, Matrix.cons_val_zero, Matrix.cons_val_one, Matrix.cons_val]
    interval_cases j <;> norm_num [wave]

theorem spatialD_line4 (f : Field) : spatialD line4 f 2 1 = -(f 0 - f 2) / 2 := by
  have hi : ∀ k : Nat, Complex.exp (2 * Real.pi * Complex.I * ((k : ℂ) / 4)) = Complex.I ^ k := by
    intro k
    rw [show 2 * (Real.pi : ℂ) * Complex.I * ((k : ℂ) / 4) = k * (Real.pi / 2 * Complex.I) by ring, Complex.exp_nat_mul,
      Complex.exp_pi_div_two_mul_I]
  have hchi : ∀ i j : Nat, i < 3 → j < 4 → chi ⟨1, 1, 4⟩ i j = Complex.I ^ (i * j) := by
    intro i j hi3 hj4
    rw [← hi]
    unfold chi
    congr 2
    interval_cases i <;> interval_cases j <;> norm_num [hStart, rStart, fold1, size2]
  have hnG : nG line4.S = 3 := by simp [nG, line4]
  have hnr : nr line4.S = 4 := by simp [nr, line4]
  have hS : line4.S = ⟨1, 1, 4⟩ := rfl
  have h0 : hStart ⟨1, 1, 4⟩ 0 = ⟨0, 0, 0⟩ := by decide
  have h1 : hStart ⟨1, 1, 4⟩ 1 = ⟨0, 0, 1⟩ := by decide
  have h2 : hStart ⟨1, 1, 4⟩ 2 = ⟨0, 0, 2⟩ := by decide
  simp only [spatialD, fftI, opD, fftJ, Idag, hnG, hnr, Finset.sum_range_succ, Finset.sum_range_zero, Int.toNat_natCast, zero_add]
  simp only [hS]
  rw [hchi 0 1, hchi 1 1, hchi 2 1, hchi 0 0, hchi 0 2, hchi 0 3, hchi 1 0, hchi 1 2, hchi 1 3, hchi 2 0, hchi 2 2, hchi 2 3] <;> try norm_num
  simp [weight, h1, h2, gvec, line4, pow_succ]
  ring

/-- With noncollinear spins and a functional of the density gradient, processes return different potentials: each keeps only
the part of the derivative through the local spin axes that comes from its own directions. -/
theorem C74_noncollinear_violation :
    (∀ s, ∀ j < nr line4.S, 0 < toDiag .noncollinear (at' texture j) (at' texture j) s) ∧
    (∀ x, (gradSquare 2).Consistent x) ∧
    Vxc line4 .noncollinear [gradSquare 2] 2 0 texture (fun _ _ => 0) 2 1
      ≠ Vxc line4 .noncollinear [gradSquare 2] 2 1 texture (fun _ _ => 0) 2 1 := by
  refine ⟨fun s j hj => texture_pos s j hj, gradSquare_consistent 2, ?_⟩
  have hflat : ∀ (f : Field) (k : Fin 3), k ≠ 2 → ∀ j, spatialD line4 f k j = 0 := by
    intro f k hk j
    have : ∀ v, gvec line4.G v k = 0 := by
      intro v
      match k with
      | 0 => simp [gvec, line4]
      | 1 => simp [gvec, line4]
      | 2 => exact absurd rfl hk
    simp [spatialD, fftI, opD, this, show (⟨0, 0⟩ : ℂ) = 0 from rfl]
  have hEs : E_sigma line4 .noncollinear [gradSquare 2] 2 texture (fun _ _ => 0) 1 = ![1, 0, 0] := by
    funext q
    simp only [E_sigma]
    rw [collected_eq _ _ _ _ (by norm_num) _ _ _ _ (by simp [line4, nr])]
    simp [gradSquare]
  have hx : (fun s : Fin 4 => spatialD line4 (texture s) 2 1) = ![-1, 0, -1, 0] := by
    funext s
    rw [spatialD_line4]
    match s with
    | 0 => show -((6 + wave 0) - (6 + wave 2)) / 2 = -1; norm_num [wave]
    | 1 => show -((4 : ℝ) - 4) / 2 = 0; norm_num
    | 2 => show -(wave 0 - wave 2) / 2 = -1; norm_num [wave]
    | 3 => show -((0 : ℝ) - 0) / 2 = 0; norm_num
  have hn : at' texture 1 = ![6, 4, 0, 0] := by
    rw [texture_at]; norm_num [wave]
  have hz : ∀ k : Fin 3, k ≠ 2 → (fun s : Fin 4 => spatialD line4 (texture s) k 1) = fun _ => 0 := fun k hk => by
    funext s; exact hflat _ k hk 1
  have hf : 0 < normFac ![6, 4, 0, 0] := by
    rw [normFac]; exact one_div_pos.2 (Real.sqrt_pos.2 (reg_pos _))
  have hb : backN .noncollinear (at' texture 1) (fun s => spatialD line4 (texture s) 2 1)
      (E_DnAt line4 .noncollinear [gradSquare 2] 2 texture (fun _ _ => 0) 2 1) 2
      = 2 * (normFac ![6, 4, 0, 0] * (1 + 2 * normFac ![6, 4, 0, 0])) := by
    simp only [E_DnAt, hEs, DnAt, toDiag]
    have hx' : (fun s : Fin (nIn .noncollinear) => spatialD line4 (texture s) 2 1) = ![-1, 0, -1, 0] := hx
    have hn' : at' texture 1 = (![6, 4, 0, 0] : Spin4) := hn
    rw [hx', hn']
    simp [backN, diagonalizeGrad, accum, gradN, E_Dn, Fin.sum_univ_two, Fin.ofNat, diagonalize, scalarPart, vectorPart, dot, mHat]
    norm_num
    ring
  intro h
  simp only [Vxc, Fin.sum_univ_three] at h
  have q0 : mine 3 2 0 ((0 : Fin 3) : Nat) = true := by decide
  have q1 : mine 3 2 0 ((1 : Fin 3) : Nat) = false := by decide
  have q2 : mine 3 2 0 ((2 : Fin 3) : Nat) = false := by decide
  have r0 : mine 3 2 1 ((0 : Fin 3) : Nat) = false := by decide
  have r1 : mine 3 2 1 ((1 : Fin 3) : Nat) = true := by decide
  have r2 : mine 3 2 1 ((2 : Fin 3) : Nat) = true := by decide
  rw [q0, q1, q2, r0, r1, r2, hb] at h
  have hb0 : ∀ k : Fin 3, k ≠ 2 → backN .noncollinear (at' texture 1) (fun s => spatialD line4 (texture s) k 1)
      (E_DnAt line4 .noncollinear [gradSquare 2] 2 texture (fun _ _ => 0) k 1) 2 = 0 := by
    intro k hk
    have hz' : (fun s : Fin (nIn .noncollinear) => spatialD line4 (texture s) k 1) = fun _ => 0 := hz k hk
    rw [hz']
    simp [backN, diagonalizeGrad, accum, gradN, vectorPart, dot]
  rw [hb0 0 (by decide), hb0 1 (by decide)] at h
  simp only [if_true, Bool.false_eq_true, if_false] at h
  have : 0 < normFac ![6, 4, 0, 0] * (1 + 2 * normFac ![6, 4, 0, 0]) := by positivity
  linarith

/-- The hypotheses of the derivative theorem hold for this functional on one process, and in the collinear modes on any
number. -/
example : (∀ s, ∀ j < nr line4.S, 0 < toDiag .polarized (at' ![fun j => 6 + wave j, fun _ => 4] j) (at' ![fun j => 6 + wave j, fun _ => 4] j) s) ∧
    ∀ f ∈ [gradSquare 2], ∀ j < nr line4.S, f.Consistent (ptAt line4 .polarized 3 ![fun j => 6 + wave j, fun _ => 4] (fun _ _ => 0) j) := by
  refine ⟨fun s j hj => ?_, fun f hf j _ => ?_⟩
  · have hj : j < 4 := by simpa [line4, nr] using hj
    match s with
    | 0 => interval_cases j <;> norm_num [toDiag, at', wave]
    | 1 => norm_num [toDiag, at']
  · rw [List.mem_singleton.1 hf]; exact gradSquare_consistent 2 _

/-! ### The local density functionals as functionals of this kind -/

/-- The local density functionals with spin (C72). -/
def ldaFn (v : LDA.Variant) (scaleFac : ℝ) : Fn 2 where
  e := fun x => (LDA.compute2 v scaleFac (x.n 0) (x.n 1)).E
  grad := fun x => ⟨![(LDA.compute2 v scaleFac (x.n 0) (x.n 1)).E_up, (LDA.compute2 v scaleFac (x.n 0) (x.n 1)).E_dn],
    fun _ => 0, fun _ => 0, fun _ => 0⟩

theorem ldaFn_consistent (v : LDA.Variant) (scaleFac : ℝ) (x : Pt 2) (h0 : 0 < x.n 0) (h1 : 0 < x.n 1)
    (hs : LDA.Smooth v (x.n 0 + x.n 1)) : (ldaFn v scaleFac).Consistent x := by
  intro c c' hc _ hn _ _ _
  refine (LDA.spin_curve v scaleFac (x.n 0) (x.n 1) (c'.n 0) (c'.n 1) (fun t => (c t).n 0) (fun t => (c t).n 1)
    (by rw [hc]) (by rw [hc]) (hn 0) (hn 1) h0 h1 hs).congr_deriv ?_
  simp [ldaFn, Fin.sum_univ_two]

/-- Noncollinear local density functional calculations: with any number of processes, the potential on each is the
derivative of the energy. -/
theorem C74_noncollinear_lda (g : Grid) (vs : List (LDA.Variant × ℝ)) (P p : Nat) (hP : p < P) (n dn : Fin 4 → Field)
    (hpos : ∀ s, ∀ j < nr g.S, 0 < diagonalize (at' n j) (at' n j) s)
    (hs : ∀ v ∈ vs, ∀ j < nr g.S, LDA.Smooth v.1 (n 0 j + n 1 j)) :
    HasDerivAt (fun t => energy g .noncollinear (vs.map fun v => ldaFn v.1 v.2) P (moved n dn t) (fun _ _ => 0))
      (g.dV * ∑ j ∈ Finset.range (nr g.S), ∑ s,
        Vxc g .noncollinear (vs.map fun v => ldaFn v.1 v.2) P p n (fun _ _ => 0) s j * dn s j) 0 := by
  have h := C74_potential_partial g .noncollinear (vs.map fun v => ldaFn v.1 v.2) P p hP
    (Or.inr (Or.inr fun f hf x q => by
      obtain ⟨v, _, rfl⟩ := List.mem_map.1 hf
      rfl)) n (fun _ _ => 0) dn (fun _ _ => 0) hpos
    (fun f hf j hj => by
      obtain ⟨v, hv, rfl⟩ := List.mem_map.1 hf
      have h0 := hpos 0 j hj
      have h1 := hpos 1 j hj
      have e : ∀ s, (ptAt g .noncollinear P n (fun _ _ => 0) j).n s = diagonalize (at' n j) (at' n j) s := fun s =>
        max_eq_left (hpos s j hj).le
      refine ldaFn_consistent v.1 v.2 _ (by rw [e]; exact h0) (by rw [e]; exact h1) ?_
      rw [e, e]
      have : diagonalize (at' n j) (at' n j) 0 + diagonalize (at' n j) (at' n j) 1 = n 0 j + n 1 j := by
        simp only [diagonalize, Matrix.cons_val_zero, Matrix.cons_val_one, scalarPart, at']; ring
      rw [this]
      exact hs v hv j hj)
  have e0 : ∀ t : ℝ, moved (fun (_ : Fin 4) (_ : Nat) => (0 : ℝ)) (fun _ _ => 0) t = fun _ _ => 0 := by
    intro t; funext s j; simp [moved]
  have e1 : ∀ t : ℝ, moved (fun (_ : Fin (nIn .noncollinear)) (_ : Nat) => (0 : ℝ)) (fun _ _ => 0) t = fun _ _ => 0 := e0
  simp only [e1, mul_zero, add_zero] at h
  exact h

example : ∀ v ∈ [(LDA.Variant.slater, (1 : ℝ)), (.corr .vwn, 1)], ∀ j < nr line4.S, LDA.Smooth v.1 (texture 0 j + texture 1 j) := by
  intro v hv j hj
  have hj : j < 4 := by simpa [line4, nr] using hj
  simp only [List.mem_cons, List.not_mem_nil, or_false] at hv
  rcases hv with rfl | rfl
  · trivial
  · refine ⟨?_, by simp⟩
    show 6 + wave j + 4 ≠ LDA.nCutoff
    interval_cases j <;> norm_num [wave, LDA.nCutoff]

end
end Jdftx.ExCorr
