import Verif.Lemmas.FluidGas
import Verif.Lemmas.FluidNeutral

/-!
# Lemmas for C95: mixtures
-/
namespace Jdftx.Fluid
open Box ExCorr Cavity Filter Topology
open scoped ComplexConjugate
noncomputable section

variable (g : Grid)

/-! ### Contributions to the energy -/

theorem innerG_sum_left {α : Type} (l : Finset α) (X : α → Arr) (Y : Arr) : innerG g (fun i => ∑ a ∈ l, X a i) Y = ∑ a ∈ l, innerG g (X a) Y := by
  rw [innerG_comm, innerG_sum_right]; exact Finset.sum_congr rfl fun a _ => innerG_comm g _ _

theorem innerG_zero_left (Y : Arr) : innerG g (fun _ => 0) Y = 0 := by simp [innerG]

theorem gather {k n : Nat} (pick : Fin k → Fin n) (X : Fin k → Arr) (Y : Fin n → Arr) :
    ∑ i, innerG g (fun l => ∑ s, if pick s = i then X s l else 0) (Y i) = ∑ s, innerG g (X s) (Y (pick s)) := by
  have e : ∀ i, innerG g (fun l => ∑ s, if pick s = i then X s l else 0) (Y i) = ∑ s, if pick s = i then innerG g (X s) (Y (pick s)) else 0 := by
    intro i
    rw [innerG_sum_left g Finset.univ (fun s l => if pick s = i then X s l else 0)]
    refine Finset.sum_congr rfl fun s _ => ?_
    split_ifs with h
    · rw [h]
    · exact innerG_zero_left g _
  rw [Finset.sum_congr rfl fun i _ => e i, Finset.sum_comm]
  refine Finset.sum_congr rfl fun s _ => ?_
  rw [Finset.sum_ite_eq Finset.univ (pick s), if_pos (Finset.mem_univ _)]

variable {C : Nat} {ns : Fin C → Nat}

theorem termSum_grad (l : List (Term ns)) (N : DN ns) (P : DP C) (h : ∀ t ∈ l, TermGrad g t N P) : TermGrad g (termSum l) N P := by
  intro M dN R dP u hM hR hdN hdP
  refine (HasDerivO.addO l (f := fun t v => t.E (M v) (R v)) fun t ht => h t ht M dN R dP u hM hR hdN hdP).congr_deriv ?_
  clear h
  induction l with
  | nil => simp [termSum, innerG]
  | cons t l ih =>
    rw [List.map_cons, List.sum_cons, ih]
    simp only [termSum, List.map_cons, List.sum_cons]
    simp only [innerG_add_left, add_mul, Finset.sum_add_distrib]
    ring

theorem termSpheres_grad (hS : g.S.Pos) (m : Mix C) (pick : (c : Fin C) → Fin (m.ns c) → Fin (ns c)) (N : DN ns) (P : DP C) (hr : MixRegular g m fun c s => N c (pick c s)) :
    TermGrad g (termSpheres g m pick) N P := by
  intro M dN R dP u hM _ hdN _
  have h := hardSphere_curve g m hS (M := fun v c s => M v c (pick c s)) (dN := fun c s => dN c (pick c s)) (t := u) (fun c s => hdN c (pick c s)) (by rw [hM]; exact hr)
  refine h.congr_deriv ?_
  simp only [termSpheres, zero_mul, Finset.sum_const_zero, mul_zero, add_zero, hM]
  congr 1
  refine Finset.sum_congr rfl fun c _ => ?_
  exact (gather g (pick c) (fun s => hardSphereGrad g m (fun c s => N c (pick c s)) c s) (dN c)).symm

theorem at_c (c0 : Fin C) (X : Fin (ns c0) → Arr) (Y : DN ns) :
    ∑ c, ∑ i, innerG g (fun k => if h : c = c0 then X (h ▸ i) k else 0) (Y c i) = ∑ i, innerG g (X i) (Y c0 i) := by
  rw [Finset.sum_eq_single c0]
  · exact Finset.sum_congr rfl fun i _ => by simp
  · intro c _ hc
    refine Finset.sum_eq_zero fun i _ => ?_
    simp only [dif_neg hc]; exact innerG_zero_left g _
  · intro h; exact absurd (Finset.mem_univ _) h

theorem termEos_grad (c0 : Fin C) {n : Nat} (sites : Fin n → Site) (pick : Fin n → Fin (ns c0)) (w : Nat → ℝ) (e : ℝ → Option (ℝ × ℝ)) (N : DN ns) (P : DP C)
    (hr : ∀ j < nr g.S, EosReg e (eosNbar g sites w (fun s => N c0 (pick s)) j)) : TermGrad g (termEos g c0 sites pick w e) N P := by
  intro M dN R dP u hM _ hdN _
  have h := eosE_curve g sites w e (M := fun v s => M v c0 (pick s)) (dN := fun s => dN c0 (pick s)) (t := u) (fun s => hdN c0 (pick s)) (by rw [hM]; exact hr)
  refine h.congr_deriv ?_
  simp only [termEos, zero_mul, Finset.sum_const_zero, mul_zero, add_zero, hM]
  congr 1
  rw [← gather g pick (fun s => eosGrad g sites w e (fun s => N c0 (pick s)) s) (dN c0)]
  exact (at_c g c0 (fun i k => ∑ s, if pick s = i then eosGrad g sites w e (fun s => N c0 (pick s)) s k else 0) dN).symm

theorem HasDerivO.of_some {f : ℝ → ℝ} {f' u : ℝ} (h : HasDerivAt f f' u) : HasDerivO (fun v => some (f v)) f' u := ⟨f, Eventually.of_forall fun _ => rfl, h⟩

theorem singleG {n : Nat} (s : Fin n) (X : Arr) (Y : Fin n → Arr) : ∑ i, innerG g (fun k => if s = i then X k else 0) (Y i) = innerG g X (Y s) := by
  rw [Finset.sum_eq_single s]
  · simp
  · intro i _ hi
    simp only [if_neg hi.symm]; exact innerG_zero_left g _
  · intro h; exact absurd (Finset.mem_univ _) h

theorem ADeriv.kerV {X : ℝ → Arr} {X' : Arr} {u : ℝ} (h : ADeriv g X X' u) (a : ℝ) (w : Nat → ℝ) : ADeriv g (fun v => kerV g a w (X v)) (kerV g a w X') u := (h.wMul g w).smul g _

theorem termPair_grad (hS : g.S.Pos) (h2 : g.S.s2 = 1 ∨ g.S.s2 % 2 = 0) (c1 : Fin C) (s1 : Fin (ns c1)) (c2 : Fin C) (s2 : Fin (ns c2)) (a : ℝ) (w : Nat → ℝ) (N : DN ns) (P : DP C) :
    TermGrad g (termPair g c1 s1 c2 s2 a w) N P := by
  intro M dN R dP u hM _ hdN _
  have h := (innerG_deriv g ((hdN c1 s1).kerV g a w) (hdN c2 s2)).const_mul g.dV
  have e : ∀ N : DN ns, (mixE g a w (N c1 s1) (N c2 s2)).1 = g.dV * innerG g (kerV g a w (N c1 s1)) (N c2 s2) := fun N => by rw [mixE, dotHalf_innerG g h2 hS]
  simp only [termPair, e]
  refine (HasDerivO.of_some h).congr_deriv ?_
  simp only [zero_mul, Finset.sum_const_zero, mul_zero, add_zero, hM, innerG_add_left, Finset.sum_add_distrib]
  congr 1
  have q1 := at_c g c1 (fun i k => if s1 = i then (mixE g a w (N c1 s1) (N c2 s2)).2.1 k else 0) dN
  have q2 := at_c g c2 (fun i k => if s2 = i then (mixE g a w (N c1 s1) (N c2 s2)).2.2 k else 0) dN
  rw [q1, q2, singleG, singleG, kerV_symm]
  rfl

/-- The Coulomb kernel. -/
def coulW (i : Nat) : ℝ := if i = 0 then 0 else g.detR * (-4 * Real.pi * (-1 / g.detR * g.detR / PCM.Gsq g i))

theorem coul_eq (X : Arr) (i : Nat) : PCM.opO g (PCM.coulomb g X) i = wMul (coulW g) X i := by
  unfold PCM.opO PCM.coulomb PCM.opLinv wMul coulW
  rcases Nat.eq_zero_or_pos i with h | h
  · subst h; simp
  · rw [if_neg (by exact_mod_cast h.ne'), Int.toNat_natCast, if_neg h.ne']
    unfold PCM.opO
    push_cast; ring

theorem coul_symm (X Y : Arr) : innerG g (PCM.opO g (PCM.coulomb g X)) Y = innerG g (PCM.opO g (PCM.coulomb g Y)) X := by
  have e : ∀ X Y : Arr, innerG g (PCM.opO g (PCM.coulomb g X)) Y = innerG g (wMul (coulW g) X) Y := fun X Y => innerG_congr g (fun i _ => coul_eq g X i) fun _ _ => rfl
  rw [e, e, ← innerG_wMul, innerG_comm]

theorem ADeriv.coul {X : ℝ → Arr} {X' : Arr} {u : ℝ} (h : ADeriv g X X' u) : ADeriv g (fun v => PCM.opO g (PCM.coulomb g (X v))) (PCM.opO g (PCM.coulomb g X')) u :=
  ADeriv.congr g (h.wMul g (coulW g)) (fun _ i _ => coul_eq g _ i) fun i _ => coul_eq g _ i

theorem termCoulomb_grad (hS : g.S.Pos) (h2 : g.S.s2 = 1 ∨ g.S.s2 % 2 = 0) (hV : g.dV ≠ 0) (hd : g.detR ≠ 0) (q : (c : Fin C) → Fin (ns c) → Nat → ℝ) (mf : Fin C → Nat → ℝ) (useMF : Bool)
    (rhoExt : Arr) (Eext : Fin 3 → ℝ) (N : DN ns) (P : DP C) : TermGrad g (termCoulomb g q mf useMF rhoExt Eext) N P := by
  intro M dN R dP u hM hR hdN hdP
  set rho : DN ns → Arr := fun N i => ∑ c, ∑ s, wMul (q c s) (N c s) i with hrho
  set rhoMF : DN ns → Arr := fun N i => ∑ c, ∑ s, ((q c s 0 : ℝ) : ℂ) * wMul (mf c) (N c s) i with hrhoMF
  set Od : Arr := PCM.opO g (PCM.coulomb g rhoExt) with hOd
  set K : Arr → Arr := fun X => PCM.opO g (PCM.coulomb g X) with hK
  have d1 : ADeriv g (fun v => rho (M v)) (rho dN) u := ADeriv.sum g Finset.univ fun c => ADeriv.sum g Finset.univ fun s => (hdN c s).wMul g _
  have d2 : ADeriv g (fun v => rhoMF (M v)) (rhoMF dN) u := ADeriv.sum g Finset.univ fun c => ADeriv.sum g Finset.univ fun s => ((hdN c s).wMul g _).smul g _
  have p1 : ∀ X : Arr, innerG g X (rho dN) = ∑ c, ∑ s, innerG g (wMul (q c s) X) (dN c s) := by
    intro X
    rw [show innerG g X (rho dN) = _ from innerG_sum_right g Finset.univ X fun c i => ∑ s, wMul (q c s) (dN c s) i]
    refine Finset.sum_congr rfl fun c _ => ?_
    rw [innerG_sum_right g Finset.univ X fun s => wMul (q c s) (dN c s)]
    exact Finset.sum_congr rfl fun s _ => innerG_wMul g _ _ _
  have p2 : ∀ X : Arr, innerG g X (rhoMF dN) = ∑ c, ∑ s, q c s 0 * innerG g (wMul (mf c) X) (dN c s) := by
    intro X
    rw [show innerG g X (rhoMF dN) = _ from innerG_sum_right g Finset.univ X fun c i => ∑ s, ((q c s 0 : ℝ) : ℂ) * wMul (mf c) (dN c s) i]
    refine Finset.sum_congr rfl fun c _ => ?_
    rw [innerG_sum_right g Finset.univ X fun s i => ((q c s 0 : ℝ) : ℂ) * wMul (mf c) (dN c s) i]
    exact Finset.sum_congr rfl fun s _ => by rw [innerG_smul_right, innerG_wMul]
  have cst : ADeriv g (fun _ : ℝ => Od) (fun _ => 0) u := fun i _ => hasDerivAt_const u (Od i)
  have z : ∀ X : Arr, innerG g X (fun _ => 0) = 0 := fun X => by rw [innerG_comm, innerG_zero_left]
  have e1 : HasDerivAt (fun v => innerG g (if useMF then rhoMF (M v) else rho (M v)) Od) (innerG g (if useMF then rhoMF dN else rho dN) Od) u := by
    cases useMF
    · exact (innerG_deriv g d1 cst).congr_deriv (by rw [z, add_zero]; rfl)
    · exact (innerG_deriv g d2 cst).congr_deriv (by rw [z, add_zero]; rfl)
  have e2 : HasDerivAt (fun v => 0.5 * innerG g (rhoMF (M v)) (K (rhoMF (M v)))) (innerG g (K (rhoMF N)) (rhoMF dN)) u := by
    refine ((innerG_deriv g d2 (d2.coul g)).const_mul 0.5).congr_deriv ?_
    rw [hM, innerG_comm g (rhoMF dN), innerG_comm g (rhoMF N), coul_symm g (rhoMF dN)]
    simp only [hK]; ring
  have tot : ∀ k, HasDerivAt (fun v => ∑ c, R v c k) (∑ c, dP c k) u := fun k => HasDerivAt.fun_sum fun c _ => hdP c k
  have e3 : HasDerivAt (fun v => 0.5 * ∑ k, (4 * Real.pi * g.detR) * (∑ c, R v c k) * (∑ c, R v c k)) (∑ k, (4 * Real.pi * g.detR) * (∑ c, P c k) * (∑ c, dP c k)) u := by
    refine ((HasDerivAt.fun_sum fun k _ => ((tot k).const_mul (4 * Real.pi * g.detR)).mul (tot k)).const_mul 0.5).congr_deriv ?_
    rw [Finset.mul_sum]
    refine Finset.sum_congr rfl fun k _ => ?_
    rw [hR]; ring
  have e4 : HasDerivAt (fun v => g.detR * ∑ k, Eext k * ∑ c, R v c k) (g.detR * ∑ k, Eext k * ∑ c, dP c k) u :=
    (HasDerivAt.fun_sum fun k _ => (tot k).const_mul (Eext k)).const_mul g.detR
  have h := ((e1.add e2).add e3).sub e4
  have eE : (fun v => (termCoulomb g q mf useMF rhoExt Eext).E (M v) (R v)) = fun v => some ((innerG g (if useMF then rhoMF (M v) else rho (M v)) Od + 0.5 * innerG g (rhoMF (M v)) (K (rhoMF (M v)))
      + 0.5 * ∑ k, (4 * Real.pi * g.detR) * (∑ c, R v c k) * (∑ c, R v c k)) - g.detR * ∑ k, Eext k * ∑ c, R v c k) := by
    funext v
    simp only [termCoulomb, dotHalf_innerG g h2 hS]
    rfl
  rw [eE]
  refine (HasDerivO.of_some h).congr_deriv ?_
  -- the gradients
  have g1 : g.dV * ∑ c, ∑ s, innerG g ((termCoulomb g q mf useMF rhoExt Eext).GN N P c s) (dN c s) = innerG g (fun i => if useMF then 0 else Od i) (rho dN)
      + innerG g (fun i => (if useMF then Od i else 0) + K (rhoMF N) i) (rhoMF dN) := by
    rw [p1, p2, Finset.mul_sum, ← Finset.sum_add_distrib]
    refine Finset.sum_congr rfl fun c _ => ?_
    rw [Finset.mul_sum, ← Finset.sum_add_distrib]
    refine Finset.sum_congr rfl fun s _ => ?_
    have : (termCoulomb g q mf useMF rhoExt Eext).GN N P c s = fun i => ((1 / g.dV : ℝ) : ℂ) * wMul (q c s) (fun i => if useMF then 0 else Od i) i
        + ((q c s 0 / g.dV : ℝ) : ℂ) * wMul (mf c) (fun i => (if useMF then Od i else 0) + K (rhoMF N) i) i := rfl
    rw [this, innerG_add_left, innerG_smul_left, innerG_smul_left]
    field_simp
  have g2 : g.detR * ∑ c, ∑ k, (termCoulomb g q mf useMF rhoExt Eext).GP N P c k * dP c k = ∑ k, (4 * Real.pi * g.detR) * (∑ c, P c k) * (∑ c, dP c k) - g.detR * ∑ k, Eext k * ∑ c, dP c k := by
    rw [Finset.sum_comm, Finset.mul_sum, Finset.mul_sum, ← Finset.sum_sub_distrib]
    refine Finset.sum_congr rfl fun k _ => ?_
    show g.detR * ∑ c, (1 / g.detR) * ((4 * Real.pi * g.detR) * (∑ c, P c k) - g.detR * Eext k) * dP c k = _
    rw [← Finset.mul_sum]
    field_simp
  rw [g1, g2]
  cases useMF
  · have f1 : (fun i => if (false = true) then (0 : ℂ) else Od i) = Od := by funext i; simp
    have f2 : (fun i => (if (false = true) then Od i else 0) + K (rhoMF N) i) = K (rhoMF N) := by funext i; simp
    rw [f1, f2, innerG_comm g Od]
    simp only [Bool.false_eq_true, if_false]; ring
  · have f1 : (fun i : Int => if (true = true) then (0 : ℂ) else Od i) = fun _ => 0 := by funext i; simp
    have f2 : (fun i => (if (true = true) then Od i else 0) + K (rhoMF N) i) = fun i => Od i + K (rhoMF N) i := by funext i; simp
    rw [f1, f2, innerG_zero_left, innerG_add_left, innerG_comm g Od]
    simp only [if_true]; ring

/-! ### The numbers of molecules -/

section
variable (m : MixF C)

open Classical in
/-- The components whose number adapts. -/
def MixF.freeSet : Finset (Fin C) := Finset.univ.filter m.free

theorem MixF.Qtot_eq (n : Fin C → ℝ) (b : ℝ) : m.Qfixed + m.Qtot n b = charge m.freeSet (fun c => (m.comp c).Q) n m.Qfixed b := by
  rw [charge, MixF.freeSet, Finset.sum_filter]; rfl

theorem MixF.Qprime_eq (n : Fin C → ℝ) (b : ℝ) : m.Qprime n b = chargeD m.freeSet (fun c => (m.comp c).Q) n b := by
  rw [chargeD, MixF.freeSet, Finset.sum_filter]; rfl

theorem MixF.neutral_iff (n : Fin C → ℝ) (b : ℝ) : m.Neutral n b ↔ charge m.freeSet (fun c => (m.comp c).Q) n m.Qfixed b = 0 := by
  classical
  rw [← m.Qtot_eq]
  have e1 : (∑ c, if 0 < (m.comp c).Nnorm then (m.comp c).Nnorm * (m.comp c).Q else 0) = ∑ c, if m.fixed c then (m.comp c).Q * (m.comp c).Nnorm else 0 :=
    Finset.sum_congr rfl fun c _ => by unfold MixF.fixed; split_ifs <;> ring
  have e2 : (∑ c, if 0 < (m.comp c).Nnorm then 0 else n c * Real.exp (-((m.comp c).Q * b)) * (m.comp c).Q) = m.Qtot n b := by
    unfold MixF.Qtot
    refine Finset.sum_congr rfl fun c _ => ?_
    by_cases h1 : 0 < (m.comp c).Nnorm
    · rw [if_pos h1, if_neg fun h : m.free c => h.2 h1]
    · rw [if_neg h1]
      by_cases h2 : (m.comp c).Q = 0
      · rw [if_neg fun h : m.free c => h.1 h2, h2, mul_zero]
      · rw [if_pos (show m.free c from ⟨h2, h1⟩), neg_mul]; ring
  unfold MixF.Neutral MixF.total MixF.Qfixed
  rw [← e2, ← e1]

theorem MixF.mem_free {c : Fin C} : c ∈ m.freeSet ↔ m.free c := by simp [MixF.freeSet]

theorem MixF.neutralV_spec {n : Fin C → ℝ} (h : ∃ b, m.Neutral n b) : m.Neutral n (m.neutralV n) := by
  unfold MixF.neutralV; rw [dif_pos h]; exact h.choose_spec

theorem nscale_deriv {n : ℝ → Fin C → ℝ} {n' : Fin C → ℝ} {β : ℝ → ℝ} {u : ℝ} (hn : ∀ c, HasDerivAt (fun v => n v c) (n' c) u) (hp : ∀ c, 0 < n u c)
    (hr : (∃ c, m.free c) → ∀ᶠ v in 𝓝 u, m.Neutral (n v) (β v)) (c : Fin C) :
    HasDerivAt (fun v => m.nscale (n v) (β v) c) (∑ d, m.jac (n u) (β u) (m.Qprime (n u) (β u)) c d * n' d) u := by
  classical
  unfold MixF.nscale MixF.jac
  by_cases hf : m.fixed c
  · simp only [if_pos hf, ite_mul, zero_mul, Finset.sum_ite_eq, Finset.mem_univ, if_true]
    refine ((hasDerivAt_const u (m.comp c).Nnorm).div (hn c) (hp c).ne').congr_deriv ?_
    have := (hp c).ne'
    field_simp; ring
  · by_cases hc : m.free c
    · have h := root_deriv (s := m.freeSet) (q := fun c => (m.comp c).Q) (n := n) (n' := n') (β := β) (Qf := m.Qfixed) (u := u) ⟨c, m.mem_free.2 hc⟩ (fun i hi => (m.mem_free.1 hi).1) (fun i _ => hn i) (fun i _ => hp i)
        ((hr ⟨c, hc⟩).mono fun v h => (m.neutral_iff _ _).1 h)
      rw [← m.Qprime_eq] at h
      simp only [if_neg hf, hc, if_true, true_and]
      refine ((h.const_mul (-(m.comp c).Q)).exp).congr_deriv ?_
      rw [MixF.freeSet, Finset.sum_filter, neg_div, Finset.sum_div, ← Finset.sum_neg_distrib, Finset.mul_sum, Finset.mul_sum]
      refine Finset.sum_congr rfl fun d _ => ?_
      split_ifs with hd
      · rw [show -((m.comp c).Q + (m.comp d).Q) * β u = -(m.comp c).Q * β u + -(m.comp d).Q * β u by ring, Real.exp_add]
        ring
      · simp
    · simp only [if_neg hf, hc, false_and, if_false, zero_mul, Finset.sum_const_zero]
      exact hasDerivAt_const _ _

theorem nscale_pos {n : Fin C → ℝ} (hp : ∀ c, 0 < n c) (b : ℝ) (c : Fin C) : 0 < m.nscale n b c := by
  classical
  unfold MixF.nscale
  split_ifs with h1 h2
  · exact div_pos h1 (hp c)
  · exact Real.exp_pos _
  · exact one_pos

theorem fftJ_zero (hS : g.S.Pos) (x : Field) : (fftJ g.S x 0).re = 1 / (nr g.S : ℝ) * sumF g x := by
  unfold fftJ Idag sumF
  simp only [Int.toNat_zero, chi_zero g.S hS, map_one, mul_one]
  rw [show (∑ j ∈ Finset.range (nr g.S), (x j : ℂ)) = ((∑ j ∈ Finset.range (nr g.S), x j : ℝ) : ℂ) by push_cast; rfl, ← Complex.ofReal_mul, Complex.ofReal_re]

theorem count_eq (hS : g.S.Pos) (hdet : g.dV * nr g.S = g.detR) (psi : m.State) (c : Fin C) : m.count g psi c = integ g (m.dens0 psi c 0) / (m.comp c).mult0 := by
  have hn : (nr g.S : ℝ) ≠ 0 := by exact_mod_cast (nr_pos g.S hS).ne'
  unfold MixF.count MixF.tilde0
  rw [fftJ_zero g hS, integ_eq, ← hdet]
  congr 1
  field_simp

theorem fftJ_smul (a : ℝ) (x : Field) (i : Int) : fftJ g.S (fun j => a * x j) i = (a : ℂ) * fftJ g.S x i := by
  unfold fftJ Idag
  rw [mul_left_comm]
  congr 1
  rw [Finset.mul_sum]
  refine Finset.sum_congr rfl fun j _ => ?_
  push_cast; ring

theorem N_eq (hS : g.S.Pos) (psi : m.State) (ns : Fin C → ℝ) (c : Fin C) (i : Fin (m.ns c + 1)) (j : Nat) (hj : j < nr g.S) : m.N g psi ns c i j = ns c * m.dens0 psi c i j := by
  have e : m.tilde g psi ns c i = fftJ g.S (fun j => ns c * m.dens0 psi c i j) := by funext k; rw [fftJ_smul]; rfl
  unfold MixF.N
  rw [e, fftI_fftJ _ hS _ _ hj]

theorem dens0_nonneg {psi : m.State} {c : Fin C} {i : Fin (m.ns c + 1)} {j : Nat} (h : 0 ≤ (m.comp c).gas.N (psi c) i j) : m.dens0 psi c i j = (m.comp c).gas.N (psi c) i j := by
  show (if _ < _ then _ else _) = _
  rw [if_neg (not_lt.2 h)]

theorem mix_deriv (hS : g.S.Pos) (hdet : g.dV * nr g.S = g.detR) (hm : ∀ c, 0 < (m.comp c).mult0) {psi : m.State} {Ψ : ℝ → m.State} {dpsi : m.State} {u : ℝ} (hΨ : Ψ u = psi)
    (hd : ∀ c k, ∀ j < nr g.S, HasDerivAt (fun v => Ψ v c k j) (dpsi c k j) u) (hnn : ∀ᶠ v in 𝓝 u, ∀ c i, ∀ j < nr g.S, 0 ≤ (m.comp c).gas.N (Ψ v c) i j)
    (hc : ∀ c, 0 < m.count g psi c) (hsol : (∃ c, m.free c) → ∀ n : Fin C → ℝ, (∀ c, 0 < n c) → ∃ b, m.Neutral n b)
    {ns : Fin C → ℝ} (hns : ns = m.nscale (m.count g psi) (m.neutralV (m.count g psi)))
    (hgas : ∀ c, GasGrad g m.T (m.comp c).mult0 (m.comp c).gas (psi c) (ns c))
    (hterm : TermGrad g (termSum m.terms) (m.tilde g psi ns) (m.P0 psi ns)) :
    HasDerivO (fun v => m.exactEnergy g (Ψ v)) (∑ c, ∑ k, dotF g (m.exactGrad g psi c k) (dpsi c k)) u := by
  classical
  set n : ℝ → Fin C → ℝ := fun v => m.count g (Ψ v) with hn
  set β : ℝ → ℝ := fun v => m.neutralV (n v) with hβ
  set s : ℝ → Fin C → ℝ := fun v => m.nscale (n v) (β v) with hs
  have hsu : s u = ns := by rw [hns, hs, hβ, hn]; simp only [hΨ]
  have hpos : ∀ c, 0 < ns c := fun c => by rw [hns]; exact nscale_pos m hc _ c
  -- densities
  have hN : ∀ c, ∃ dN : Fin (m.ns c + 1) → Field, ∀ i, ∀ j < nr g.S, HasDerivAt (fun v => (m.comp c).gas.N (Ψ v c) i j) (dN i j) u := by
    intro c
    obtain ⟨dN, _, _, h, _⟩ := hgas c (fun v => Ψ v c) (dpsi c) (fun _ => ns c) 0 u (congrFun hΨ c) rfl (hd c) (hasDerivAt_const _ _)
    exact ⟨dN, h⟩
  have hD0 : ∀ c (dN : Fin (m.ns c + 1) → Field), (∀ i, ∀ j < nr g.S, HasDerivAt (fun v => (m.comp c).gas.N (Ψ v c) i j) (dN i j) u) →
      ∀ i, ∀ j < nr g.S, HasDerivAt (fun v => m.dens0 (Ψ v) c i j) (dN i j) u := fun c dN h i j hj =>
    (h i j hj).congr_of_eventuallyEq (hnn.mono fun v hv => dens0_nonneg m (hv c i j hj))
  choose dN0 hdN0 using hN
  -- numbers of molecules
  have hcount : ∀ c, HasDerivAt (fun v => n v c) (g.dV * sumF g (dN0 c 0) / (m.comp c).mult0) u := by
    intro c
    simp only [hn, count_eq g m hS hdet, integ_eq]
    exact ((sumF_deriv g (fun j hj => hD0 c (dN0 c) (hdN0 c) 0 j hj)).const_mul _).div_const _
  have hp : ∀ c, 0 < n u c := fun c => by simp only [hn, hΨ]; exact hc c
  have hr : (∃ c, m.free c) → ∀ᶠ v in 𝓝 u, m.Neutral (n v) (β v) := by
    intro hf
    have : ∀ᶠ v in 𝓝 u, ∀ c, 0 < n v c := eventually_all.2 fun c => (hcount c).continuousAt.eventually (lt_mem_nhds (hp c))
    exact this.mono fun v hv => m.neutralV_spec (hsol hf _ hv)
  set J : Fin C → Fin C → ℝ := m.jac (n u) (β u) (m.Qprime (n u) (β u)) with hJ
  set s' : Fin C → ℝ := fun c => ∑ d, J c d * (g.dV * sumF g (dN0 d 0) / (m.comp d).mult0) with hs'
  have hsd : ∀ c, HasDerivAt (fun v => s v c) (s' c) u := fun c => nscale_deriv m hcount hp hr c
  -- gases
  have hg : ∀ c, _ := fun c => hgas c (fun v => Ψ v c) (dpsi c) (fun v => s v c) (s' c) u (congrFun hΨ c) (congrFun hsu c) (hd c) (hsd c)
  choose dN dP dE h1 h2 h3 h4 using hg
  have hdd : ∀ c, ∀ j < nr g.S, dN c 0 j = dN0 c 0 j := fun c j hj => (h1 c 0 j hj).unique (hdN0 c 0 j hj)
  have hD := fun c => hD0 c (dN c) (h1 c)
  have hnn0 := hnn.self_of_nhds
  have e0 : ∀ c i, ∀ j < nr g.S, m.dens0 psi c i j = (m.comp c).gas.N (psi c) i j := fun c i j hj => dens0_nonneg m (by have := hnn0 c i j hj; rwa [hΨ] at this)
  -- scaled densities
  have t1 : ∀ c i, ADeriv g (fun v => m.tilde g (Ψ v) (s v) c i) (fftJ g.S fun j => s' c * (m.comp c).gas.N (psi c) i j + ns c * dN c i j) u := by
    intro c i k _
    have e : (fun v => m.tilde g (Ψ v) (s v) c i k) = fun v => fftJ g.S (fun j => s v c * m.dens0 (Ψ v) c i j) k := by funext v; rw [fftJ_smul]; rfl
    rw [e]
    refine PCM.fftJ_deriv g.S _ _ u (fun j hj => ?_) k
    refine ((hsd c).mul (hD c i j hj)).congr_deriv ?_
    rw [hΨ, e0 c i j hj, hsu]
  have t2 : ∀ c k, HasDerivAt (fun v => m.P0 (Ψ v) (s v) c k) (s' c * (m.comp c).gas.P0 (psi c) k + ns c * dP c k) u := by
    intro c k
    refine ((h2 c k).mul (hsd c)).congr_deriv ?_
    rw [hΨ, hsu]; ring
  have d1 := hterm (fun v => m.tilde g (Ψ v) (s v)) _ (fun v => m.P0 (Ψ v) (s v)) _ u (by simp only [hΨ, hsu]) (by simp only [hΨ, hsu]) t1 t2
  have hX : ∀ᶠ v in 𝓝 u, ∀ c i, ∀ j < nr g.S, m.N g (Ψ v) (s v) c i j = s v c * (m.comp c).gas.N (Ψ v c) i j := by
    filter_upwards [hnn] with v hv c i j hj
    rw [N_eq g m hS _ _ _ _ _ hj, dens0_nonneg m (hv c i j hj)]
  have d2 : ∀ c, HasDerivAt (fun v => (m.comp c).gas.energy (Ψ v c) (m.N g (Ψ v) (s v) c) (s v c) + (if s v c ≠ 1 then integ g (m.N g (Ψ v) (s v) c 0) * m.deltaTs (s v) c else 0)) (dE c) u := by
    intro c
    refine (h3 c (fun v => m.N g (Ψ v) (s v) c) (hX.mono fun v hv => hv c)).congr_of_eventuallyEq (Eventually.of_forall fun v => ?_)
    simp only [MixF.deltaTs]
    split_ifs with h
    · rfl
    · rw [not_not.1 h]; simp
  obtain ⟨F, hF, hFd⟩ := d1
  refine ⟨fun v => F v + (∑ c, ((m.comp c).gas.energy (Ψ v c) (m.N g (Ψ v) (s v) c) (s v c) + (if s v c ≠ 1 then integ g (m.N g (Ψ v) (s v) c 0) * m.deltaTs (s v) c else 0)) + m.p * g.detR), ?_,
    (hFd.add ((HasDerivAt.fun_sum fun c _ => d2 c).add (hasDerivAt_const _ _))).congr_deriv ?_⟩
  · filter_upwards [hF] with v hv
    unfold MixF.exactEnergy MixF.energy
    simp only [addO]
    rw [show (termSum m.terms).E (m.tilde g (Ψ v) (m.nscale (m.count g (Ψ v)) (m.neutralV (m.count g (Ψ v))))) (m.P0 (Ψ v) (m.nscale (m.count g (Ψ v)) (m.neutralV (m.count g (Ψ v))))) = some (F v) from hv]
    simp only [Option.bind_eq_bind, Option.bind_some, Option.pure_def, add_zero]
    rfl
  -- algebra
  have hXu : ∀ c i, ∀ j < nr g.S, m.N g psi ns c i j = ns c * (m.comp c).gas.N (psi c) i j := by
    have := hX.self_of_nhds
    rw [hΨ, hsu] at this
    exact this
  set A : (c : Fin C) → Fin (m.ns c + 1) → Field := fun c i => Jdag g.S ((termSum m.terms).GN (m.tilde g psi ns) (m.P0 psi ns) c i) with hA
  set B := m.PhiP g psi ns with hB
  set a : Fin C → ℝ := fun c => (∑ d, m.PhiScale g psi ns d * J d c) / (ns c * (m.comp c).mult0) with ha
  have eG : ∀ c, g.dV * (∑ i, dotF g (A c i) fun j => s' c * (m.comp c).gas.N (psi c) i j + ns c * dN c i j) + g.detR * (∑ k, B c k * (s' c * (m.comp c).gas.P0 (psi c) k + ns c * dP c k)) + dE c
      + a c * (g.dV * ∑ j ∈ Finset.range (nr g.S), ns c * dN c 0 j) = (∑ k, dotF g (m.exactGrad g psi c k) (dpsi c k)) + s' c * m.PhiScale g psi ns c := by
    intro c
    rw [h4 c (m.N g psi ns c) (A c) (B c) (a c) (hXu c)]
    have eP : ∀ i j, A c i j + (m.comp c).gas.addN (psi c) i j + (if i = 0 then m.T * Real.log (ns c) / (m.comp c).mult0 else 0) = m.PhiN g psi ns c i j := by
      intro i j
      show _ = A c i j + (m.comp c).gas.addN (psi c) i j + _
      congr 1
      by_cases hi : i = 0
      · simp only [hi, if_true, true_and, MixF.deltaTs]
        split_ifs with h
        · rfl
        · rw [not_not.1 h]; simp
      · simp [hi]
    simp only [eP]
    congr 1
    · rw [Finset.mul_sum]
      refine Finset.sum_congr rfl fun k _ => ?_
      rw [← dotF_smul_left]
      have : m.exactGrad g psi c = m.grad g psi ns J c := by
        unfold MixF.exactGrad
        simp only [hJ, hβ, hn, hΨ, ← hns]
      rw [this]
      rfl
    · congr 1
      unfold MixF.PhiScale
      have hp0 := (hpos c).ne'
      have e1 : g.detR * (∑ k, m.P0 psi ns c k * m.PhiP g psi ns c k) / ns c = g.detR * ∑ k, (m.comp c).gas.P0 (psi c) k * B c k := by
        rw [mul_div_assoc, Finset.sum_div]
        congr 1
        refine Finset.sum_congr rfl fun k _ => ?_
        show (m.comp c).gas.P0 (psi c) k * ns c * B c k / ns c = _
        field_simp
      have e2 : (∑ i, g.dV * dotF g (m.N g psi ns c i) (m.PhiN g psi ns c i) / ns c) = g.dV * ∑ i, dotF g ((m.comp c).gas.N (psi c) i) (m.PhiN g psi ns c i) := by
        rw [Finset.mul_sum]
        refine Finset.sum_congr rfl fun i _ => ?_
        rw [dotF_congr g (hXu c i) (fun _ _ => rfl), dotF_smul_left]
        field_simp
      rw [e1, e2]
      ring
  have hdot : ∀ c i, innerG g ((termSum m.terms).GN (m.tilde g psi ns) (m.P0 psi ns) c i) (fftJ g.S fun j => s' c * (m.comp c).gas.N (psi c) i j + ns c * dN c i j)
      = dotF g (A c i) fun j => s' c * (m.comp c).gas.N (psi c) i j + ns c * dN c i j := fun c i => innerG_fftJ g _ _
  simp only [hdot]
  have hsum := Finset.sum_congr (s₁ := Finset.univ) rfl fun c _ => eG c
  simp only [Finset.sum_add_distrib, ← Finset.mul_sum] at hsum
  have hcancel : ∑ c, a c * (g.dV * (ns c * ∑ j ∈ Finset.range (nr g.S), dN c 0 j)) = ∑ c, s' c * m.PhiScale g psi ns c := by
    have l : ∀ c, a c * (g.dV * (ns c * ∑ j ∈ Finset.range (nr g.S), dN c 0 j)) = ∑ d, m.PhiScale g psi ns d * J d c * (g.dV * sumF g (dN0 c 0) / (m.comp c).mult0) := by
      intro c
      have hm0 : ((m.comp c).mult0 : ℝ) ≠ 0 := by exact_mod_cast (hm c).ne'
      have hp0 := (hpos c).ne'
      have e : ∑ j ∈ Finset.range (nr g.S), dN c 0 j = sumF g (dN0 c 0) :=
         Finset.sum_congr rfl fun j hj => hdd c j (Finset.mem_range.1 hj)
      rw [e, ha, ← Finset.sum_mul]
      field_simp
    rw [Finset.sum_congr rfl fun c _ => l c, Finset.sum_comm]
    refine Finset.sum_congr rfl fun c _ => ?_
    rw [hs', Finset.sum_mul]
    exact Finset.sum_congr rfl fun d _ => by ring
  rw [hcancel] at hsum
  simp only [add_zero]
  have hB' : (termSum m.terms).GP (m.tilde g psi ns) (m.P0 psi ns) = B := rfl
  rw [hB']
  linarith [hsum]

theorem MixF.total_eq (n : Fin C → ℝ) (b : ℝ) : m.total n b = charge m.freeSet (fun c => (m.comp c).Q) n m.Qfixed b := by
  have e : ∀ x : ℝ, m.Qext - x + (m.Qfixed - m.Qext) + x = m.Qfixed := fun x => by ring
  classical
  rw [← m.Qtot_eq]
  have e1 : (∑ c, if 0 < (m.comp c).Nnorm then (m.comp c).Nnorm * (m.comp c).Q else 0) = ∑ c, if m.fixed c then (m.comp c).Q * (m.comp c).Nnorm else 0 :=
    Finset.sum_congr rfl fun c _ => by unfold MixF.fixed; split_ifs <;> ring
  have e2 : (∑ c, if 0 < (m.comp c).Nnorm then 0 else n c * Real.exp (-((m.comp c).Q * b)) * (m.comp c).Q) = m.Qtot n b := by
    unfold MixF.Qtot
    refine Finset.sum_congr rfl fun c _ => ?_
    by_cases h1 : 0 < (m.comp c).Nnorm
    · rw [if_pos h1, if_neg fun h : m.free c => h.2 h1]
    · rw [if_neg h1]
      by_cases h2 : (m.comp c).Q = 0
      · rw [if_neg fun h : m.free c => h.1 h2, h2, mul_zero]
      · rw [if_pos (show m.free c from ⟨h2, h1⟩), neg_mul]; ring
  unfold MixF.total MixF.Qfixed
  rw [← e2, ← e1]

theorem MixF.total_deriv (n : Fin C → ℝ) (b : ℝ) : deriv (m.total n) b = m.Qprime n b := by
  rw [show m.total n = charge m.freeSet (fun c => (m.comp c).Q) n m.Qfixed from funext (m.total_eq n), (charge_hasDeriv n m.Qfixed b).deriv, m.Qprime_eq]

theorem MixF.Q_total (n : Fin C → ℝ) (b : ℝ) : m.Qfixed + m.Qtot n b = m.total n b := by rw [m.Qtot_eq, m.total_eq]

theorem newton_hit (n : Fin C → ℝ) (fuel k0 : Nat) (q : ℝ) (h : ∃ k, k0 ≤ k ∧ k < k0 + fuel ∧ |m.total n (newtonSeq (m.total n) k)| < |m.Qtol|) :
    |m.total n (m.newton n fuel (newtonSeq (m.total n) k0, q)).1| < |m.Qtol| ∧ (m.newton n fuel (newtonSeq (m.total n) k0, q)).2 = m.Qprime n (m.newton n fuel (newtonSeq (m.total n) k0, q)).1 := by
  induction fuel generalizing k0 q with
  | zero => obtain ⟨k, h1, h2, _⟩ := h; omega
  | succ fuel ih =>
    unfold MixF.newton
    simp only [m.Q_total]
    split_ifs with h0
    · exact ⟨h0, rfl⟩
    · have e : newtonSeq (m.total n) k0 - m.total n (newtonSeq (m.total n) k0) / m.Qprime n (newtonSeq (m.total n) k0) = newtonSeq (m.total n) (k0 + 1) := by
        rw [← m.total_deriv]; rfl
      rw [e]
      refine ih (k0 + 1) _ ?_
      obtain ⟨k, h1, h2, h3⟩ := h
      refine ⟨k, ?_, by omega, h3⟩
      rcases Nat.eq_or_lt_of_le h1 with h | h
      · rw [← h] at h3; exact absurd h3 h0
      · omega

theorem newton_le (n : Fin C → ℝ) (hstep : ∀ b, -(m.total n b / m.Qprime n b) ≤ 1) (fuel : Nat) (s : ℝ × ℝ) : (m.newton n fuel s).1 ≤ s.1 + fuel := by
  induction fuel generalizing s with
  | zero => simp [MixF.newton]
  | succ fuel ih =>
    unfold MixF.newton
    simp only [m.Q_total]
    split_ifs
    · push_cast; have : (0 : ℝ) ≤ fuel := Nat.cast_nonneg _; linarith
    · refine (ih _).trans ?_
      have := hstep s.1
      push_cast; linarith

theorem number_eq (hS : g.S.Pos) (hdet : g.dV * nr g.S = g.detR) (psi : m.State) (b : ℝ) (c : Fin C) : m.number g psi b c = m.nscale (m.count g psi) b c * m.count g psi c := by
  unfold MixF.number
  rw [count_eq g m hS hdet psi c, integ_eq, integ_eq]
  have : sumF g (m.N g psi (m.nscale (m.count g psi) b) c 0) = m.nscale (m.count g psi) b c * sumF g (m.dens0 psi c 0) := by
    rw [← sumF_smul]
    exact Finset.sum_congr rfl fun j hj => N_eq g m hS _ _ _ _ _ (Finset.mem_range.1 hj)
  rw [this]; ring

theorem cellCharge_eq (hS : g.S.Pos) (hdet : g.dV * nr g.S = g.detR) (psi : m.State) (hc : ∀ c, 0 < m.count g psi c) (b : ℝ) : m.cellCharge g psi b = m.total (m.count g psi) b := by
  classical
  unfold MixF.cellCharge MixF.total
  rw [add_assoc, ← Finset.sum_add_distrib]
  congr 1
  refine Finset.sum_congr rfl fun c _ => ?_
  rw [number_eq g m hS hdet]
  have h0 := (hc c).ne'
  unfold MixF.nscale MixF.fixed MixF.free
  by_cases h1 : 0 < (m.comp c).Nnorm
  · simp only [if_pos h1]; field_simp; ring
  · by_cases h2 : (m.comp c).Q = 0
    · simp [h1, h2]
    · rw [if_neg h1, if_neg h1, if_neg h1, if_pos ⟨h2, h1⟩, neg_mul]; ring

theorem neutral_unique {n : Fin C → ℝ} (hn : ∀ c, 0 < n c) (hf : ∃ c, m.free c) {a b : ℝ} (ha : m.Neutral n a) (hb : m.Neutral n b) : a = b := by
  obtain ⟨c, hc⟩ := hf
  exact (charge_anti ⟨c, m.mem_free.2 hc⟩ (fun i hi => (m.mem_free.1 hi).1) (fun i _ => hn i) m.Qfixed).injective (((m.neutral_iff _ _).1 ha).trans ((m.neutral_iff _ _).1 hb).symm)

theorem solve_free {n : Fin C → ℝ} (hf : ∃ c, m.free c) {r : ℝ × ℝ} (h : m.solve n = .ok r) : r = m.newton n 10 (0, 0) := by
  unfold MixF.solve at h
  rw [if_neg (not_not.2 hf)] at h
  split_ifs at h
  exact (Except.ok.inj h).symm

end

end
end Jdftx.Fluid
