import Verif.Lemmas.ExactXEnergy

/-!
# Lemmas for C97: the complete mesh
-/
namespace Jdftx.EXX
open M3
noncomputable section

theorem net_sym {K : V3 ℝ → ℝ} {s t : KT} (hs : Symmetry K s) (ht : Symmetry K t) : Symmetry K (s.net t) := sym_mul hs (sym_inv ht)

/-- Sums over pairs of reduced points with their transforms are sums over pairs of mesh points. -/
theorem mesh_sum {K : V3 ℝ → ℝ} (hK : EvenKernel K) {thr : ℝ} {m : Kmesh} {choice : Nat → Nat} (hm : MeshOK K thr m choice) (Q : Nat) (hQ : ∀ ik < m.n, m.iReduced ik < Q)
    (c : Nat → Nat → ℝ) (P D R : Nat → Orb) (hDR : ∀ a, (D a).k = (R a).k) :
    ∑ a ∈ Finset.range Q, ∑ b ∈ Finset.range Q, wsum (fun t => c a b * (form K ((P a).act t) (D b) (R b)).re) (m.pairs thr choice a b) =
      ∑ ik ∈ Finset.range m.n, ∑ jk ∈ Finset.range m.n, c (m.iReduced ik) (m.iReduced jk) *
        (form K ((P (m.iReduced ik)).act (m.pick choice ik)) ((D (m.iReduced jk)).act (m.pick choice jk)) ((R (m.iReduced jk)).act (m.pick choice jk))).re := by
  have h := pass_sum m thr choice Q hQ (fun a b t => c a b * (form K ((P a).act t) (D b) (R b)).re)
    (fun ik hik jk hjk ik' hik' jk' hjk' hs a b => by
      rw [form_lattice K _ _ hs.1 hs.2.1 (hm.sharp ik hik jk hjk ik' hik' jk' hjk' hs)])
    ((List.range m.n).flatMap fun ik => (List.range m.n).map fun jk => (ik, jk))
    (fun p hp => by
      obtain ⟨ik, h1, h2⟩ := List.mem_flatMap.1 hp
      obtain ⟨jk, h3, rfl⟩ := List.mem_map.1 h2
      exact ⟨List.mem_range.1 h1, List.mem_range.1 h3⟩)
    (fun _ _ => []) (fun _ _ p hp => by simp at hp)
  have e : m.pairs thr choice = pass m thr choice ((List.range m.n).flatMap fun ik => (List.range m.n).map fun jk => (ik, jk)) fun _ _ => [] := rfl
  rw [e, h]
  simp only [wsum, List.map_nil, List.sum_nil, Finset.sum_const_zero, zero_add]
  rw [flatMap_sum m.n fun ik jk => c (m.iReduced ik) (m.iReduced jk) * (form K ((P (m.iReduced ik)).act ((m.pick choice ik).net (m.pick choice jk))) (D (m.iReduced jk)) (R (m.iReduced jk))).re]
  refine Finset.sum_congr rfl fun ik hik => Finset.sum_congr rfl fun jk hjk => ?_
  rw [form_net (hm.sym ik (Finset.mem_range.1 hik)) (hm.sym jk (Finset.mem_range.1 hjk)) hK _ _ _ (hDR _)]

/-- Number of pairs of mesh points. -/
theorem pairs_pos {thr : ℝ} {m : Kmesh} {choice : Nat → Nat} (Q : Nat) (hQ : ∀ ik < m.n, m.iReduced ik < Q) (a b : Nat) (ha : ∃ ik < m.n, m.iReduced ik = a) (hb : ∃ jk < m.n, m.iReduced jk = b) :
    m.pairs thr choice a b ≠ [] := by
  obtain ⟨ik, h1, h2⟩ := ha
  obtain ⟨jk, h3, h4⟩ := hb
  have haQ : a < Q := h2 ▸ hQ ik h1
  have hbQ : b < Q := h4 ▸ hQ jk h3
  intro h0
  have h := pass_sum m thr choice Q hQ (fun a' b' _ => if a' = a then (if b' = b then 1 else 0) else 0)
    (fun _ _ _ _ _ _ _ _ _ _ _ => rfl)
    ((List.range m.n).flatMap fun ik => (List.range m.n).map fun jk => (ik, jk))
    (fun p hp => by
      obtain ⟨ik, h1, h2⟩ := List.mem_flatMap.1 hp
      obtain ⟨jk, h3, rfl⟩ := List.mem_map.1 h2
      exact ⟨List.mem_range.1 h1, List.mem_range.1 h3⟩)
    (fun _ _ => []) (fun _ _ p hp => by simp at hp)
  have e : pass m thr choice ((List.range m.n).flatMap fun ik => (List.range m.n).map fun jk => (ik, jk)) (fun _ _ => []) = m.pairs thr choice := rfl
  rw [e, flatMap_sum m.n fun ik jk => if m.iReduced ik = a then (if m.iReduced jk = b then (1 : ℝ) else 0) else 0] at h
  have hl : ∑ a' ∈ Finset.range Q, ∑ b' ∈ Finset.range Q, wsum (fun _ => if a' = a then (if b' = b then (1 : ℝ) else 0) else 0) (m.pairs thr choice a' b') = 0 := by
    refine Finset.sum_eq_zero fun a' _ => Finset.sum_eq_zero fun b' _ => ?_
    by_cases e1 : a' = a
    · by_cases e2 : b' = b
      · rw [e1, e2, h0]; simp [wsum]
      · simp [wsum, e2]
    · simp [wsum, e1]
  rw [hl] at h
  simp only [wsum, List.map_nil, List.sum_nil, Finset.sum_const_zero, zero_add] at h
  have hpos : (1 : ℝ) ≤ ∑ ik ∈ Finset.range m.n, ∑ jk ∈ Finset.range m.n, if m.iReduced ik = a then (if m.iReduced jk = b then (1 : ℝ) else 0) else 0 := by
    have n1 : ∀ i j, (0 : ℝ) ≤ if m.iReduced i = a then (if m.iReduced j = b then (1 : ℝ) else 0) else 0 := fun i j => by split_ifs <;> norm_num
    refine le_trans ?_ (Finset.single_le_sum (f := fun ik => ∑ jk ∈ Finset.range m.n, if m.iReduced ik = a then (if m.iReduced jk = b then (1 : ℝ) else 0) else 0) (fun i _ => Finset.sum_nonneg fun j _ => n1 i j) (Finset.mem_range.2 h1))
    refine le_trans ?_ (Finset.single_le_sum (f := fun jk => if m.iReduced ik = a then (if m.iReduced jk = b then (1 : ℝ) else 0) else 0) (fun j _ => n1 ik j) (Finset.mem_range.2 h3))
    simp [h2, h4]
  rw [← h] at hpos
  norm_num at hpos

theorem sum4 (Q n : Nat) (X : Nat → Nat → Nat → Nat → ℝ) : ∑ q ∈ Finset.range Q, ∑ b ∈ Finset.range n, ∑ ik ∈ Finset.range Q, ∑ bk ∈ Finset.range n, X ik bk q b =
    ∑ bk ∈ Finset.range n, ∑ b ∈ Finset.range n, ∑ ik ∈ Finset.range Q, ∑ q ∈ Finset.range Q, X ik bk q b := by
  calc _ = ∑ b ∈ Finset.range n, ∑ q ∈ Finset.range Q, ∑ ik ∈ Finset.range Q, ∑ bk ∈ Finset.range n, X ik bk q b := Finset.sum_comm
    _ = ∑ b ∈ Finset.range n, ∑ q ∈ Finset.range Q, ∑ bk ∈ Finset.range n, ∑ ik ∈ Finset.range Q, X ik bk q b := Finset.sum_congr rfl fun b _ => Finset.sum_congr rfl fun q _ => Finset.sum_comm
    _ = ∑ b ∈ Finset.range n, ∑ bk ∈ Finset.range n, ∑ q ∈ Finset.range Q, ∑ ik ∈ Finset.range Q, X ik bk q b := Finset.sum_congr rfl fun b _ => Finset.sum_comm
    _ = ∑ bk ∈ Finset.range n, ∑ b ∈ Finset.range n, ∑ q ∈ Finset.range Q, ∑ ik ∈ Finset.range Q, X ik bk q b := Finset.sum_comm
    _ = _ := Finset.sum_congr rfl fun bk _ => Finset.sum_congr rfl fun b _ => Finset.sum_comm

theorem deriv_sum5 (nS nB n : Nat) (f : Nat → Nat → Nat → Nat → Nat → ℝ → ℝ) (f' : Nat → Nat → Nat → Nat → Nat → ℝ)
    (h : ∀ s b b' ik jk, ik < n → jk < n → HasDerivAt (f s b b' ik jk) (f' s b b' ik jk) 0) :
    HasDerivAt (fun t => ∑ s ∈ Finset.range nS, ∑ b ∈ Finset.range nB, ∑ b' ∈ Finset.range nB, ∑ ik ∈ Finset.range n, ∑ jk ∈ Finset.range n, f s b b' ik jk t)
      (∑ s ∈ Finset.range nS, ∑ b ∈ Finset.range nB, ∑ b' ∈ Finset.range nB, ∑ ik ∈ Finset.range n, ∑ jk ∈ Finset.range n, f' s b b' ik jk) 0 :=
  HasDerivAt.fun_sum fun s _ => HasDerivAt.fun_sum fun b _ => HasDerivAt.fun_sum fun b' _ => HasDerivAt.fun_sum fun ik hik => HasDerivAt.fun_sum fun jk hjk =>
    h s b b' ik jk (Finset.mem_range.1 hik) (Finset.mem_range.1 hjk)

variable (S : Sys) {thr : ℝ} {m : Kmesh} {choice : Nat → Nat}

theorem jCost_pos (hk : S.kpairs = m.pairs thr choice) (hQ : ∀ ik < m.n, m.iReduced ik < S.Q) (hall : ∀ q < S.Q, ∃ ik < m.n, m.iReduced ik = q) : ∀ c ∈ S.jCost, 0 < c := by
  intro c hc
  obtain ⟨jq, hj, rfl⟩ := List.mem_map.1 hc
  have hj := List.mem_range.1 hj
  refine lt_of_lt_of_le (List.length_pos_iff.2 (pairs_pos (thr := thr) (choice := choice) S.Q hQ jq jq (hall jq hj) (hall jq hj))) ?_
  rw [← hk]
  exact List.single_le_sum (fun _ _ => Nat.zero_le _) _ (List.mem_map.2 ⟨jq, List.mem_range.2 hj, rfl⟩)

/-- The prefactor of a pair of mesh points. -/
def Sys.kap : ℝ := -(S.aXX / 2) * S.spinWeight / (S.nMesh : ℝ) ^ 2

variable (hw : ∀ q < S.Q, S.weight q ≠ 0)
include hw

theorem prefac_eq (mult a b : Nat) (ha : a < S.Q) (hb : b < S.Q) (x y : ℝ) : S.prefac mult (S.weight a) (S.weight b) * (S.weight a * x * (S.weight b * y)) = mult * (S.kap * x * y) := by
  unfold Sys.prefac Sys.kap
  have h1 := hw a ha
  have h2 := hw b hb
  generalize S.weight a = u at *
  generalize S.weight b = v at *
  rw [div_mul_eq_mul_div, div_eq_iff (mul_ne_zero h1 h2), div_eq_mul_inv]
  ring

theorem pairEnergy_eq (C : Wfns) (F : Fill) (s ik iq b : Nat) (hik : ik < S.Q) (hiq : iq < S.Q) :
    S.pairEnergy C F s ik iq b = ∑ bk ∈ Finset.range S.nB, wsum (fun t => (S.kap * F s ik bk * F s iq b) * (form S.K ((S.orb C s ik bk).act t) (S.orb C s iq b) (S.orb C s iq b)).re) (S.kpairs ik iq) := by
  unfold Sys.pairEnergy wsum
  refine Finset.sum_congr rfl fun bk _ => congrArg List.sum (List.map_congr_left fun kp _ => ?_)
  simp only []
  rw [prefac_eq S hw kp.2 ik iq hik hiq]
  split_ifs with h
  · have h1 : F s ik bk = 0 := (mul_eq_zero.1 h.1).resolve_left (hw ik hik)
    rw [h1]; ring
  · ring

/-- The energy as a sum over bands and pairs of mesh points. -/
theorem energy_mesh (hB : 0 < S.nB) (hn : 0 < S.nProc) (hK : EvenKernel S.K) (hm : MeshOK S.K thr m choice) (hk : S.kpairs = m.pairs thr choice) (hQ : ∀ ik < m.n, m.iReduced ik < S.Q)
    (hall : ∀ q < S.Q, ∃ ik < m.n, m.iReduced ik = q) (C : Wfns) (F : Fill) :
    S.energy C F = ∑ s ∈ Finset.range S.nSpins, ∑ b ∈ Finset.range S.nB, ∑ b' ∈ Finset.range S.nB, ∑ ik ∈ Finset.range m.n, ∑ jk ∈ Finset.range m.n,
      (S.kap * F s (m.iReduced ik) b * F s (m.iReduced jk) b') *
        (form S.K (meshOrb S m choice C s ik b) (meshOrb S m choice C s jk b') (meshOrb S m choice C s jk b')).re := by
  unfold Sys.energy
  refine Finset.sum_congr rfl fun s _ => ?_
  have h1 : (S.allChunks.map fun c => ∑ ik ∈ Finset.range S.Q, ∑ b ∈ Finset.Ico c.bStart c.bStop, S.pairEnergy C F s ik c.iq b) =
      S.allChunks.map fun c => ∑ b ∈ Finset.Ico c.bStart c.bStop, ∑ ik ∈ Finset.range S.Q, S.pairEnergy C F s ik c.iq b := List.map_congr_left fun c _ => Finset.sum_comm
  rw [h1, chunk_sum S hB hn (jCost_pos S hk hQ hall) fun q b => ∑ ik ∈ Finset.range S.Q, S.pairEnergy C F s ik q b]
  have h2 : ∀ q ∈ Finset.range S.Q, ∀ b ∈ Finset.range S.nB, ∀ ik ∈ Finset.range S.Q, S.pairEnergy C F s ik q b = _ := fun q hq b _ ik hik => pairEnergy_eq S hw C F s ik q b (Finset.mem_range.1 hik) (Finset.mem_range.1 hq)
  rw [Finset.sum_congr rfl fun q hq => Finset.sum_congr rfl fun b hb => Finset.sum_congr rfl fun ik hik => h2 q hq b hb ik hik]
  rw [sum4]
  refine Finset.sum_congr rfl fun bk _ => Finset.sum_congr rfl fun b _ => ?_
  rw [hk]
  exact mesh_sum hK hm S.Q hQ (fun ik q => S.kap * F s ik bk * F s q b) (fun ik => S.orb C s ik bk) (fun q => S.orb C s q b) (fun q => S.orb C s q b) fun _ => rfl

/-- The gradient contracted with a direction, as a sum over bands and pairs of mesh points. -/
theorem grad_mesh (hB : 0 < S.nB) (hn : 0 < S.nProc) (hK : EvenKernel S.K) (hm : MeshOK S.K thr m choice) (hk : S.kpairs = m.pairs thr choice) (hQ : ∀ ik < m.n, m.iReduced ik < S.Q)
    (hall : ∀ q < S.Q, ∃ ik < m.n, m.iReduced ik = q) (C D : Wfns) (F : Fill) (s : Nat) :
    ∑ q ∈ Finset.range S.Q, ∑ b ∈ Finset.range S.nB, S.weight q * F s q b * (∑ G ∈ (D s q b).support, star (D s q b G) * S.grad C F s q b G).re =
      ∑ b ∈ Finset.range S.nB, ∑ b' ∈ Finset.range S.nB, ∑ ik ∈ Finset.range m.n, ∑ jk ∈ Finset.range m.n,
        (2 * S.kap * F s (m.iReduced ik) b * F s (m.iReduced jk) b') *
          (form S.K (meshOrb S m choice C s ik b) (meshOrb S m choice D s jk b') (meshOrb S m choice C s jk b')).re := by
  have hp := jCost_pos S hk hQ hall
  have hmesh : FromMesh m choice (m.pairs thr choice) := pass_mesh m thr choice _
    (fun p hp => by
      obtain ⟨ik, h1, h2⟩ := List.mem_flatMap.1 hp
      obtain ⟨jk, h3, rfl⟩ := List.mem_map.1 h2
      exact ⟨List.mem_range.1 h1, List.mem_range.1 h3⟩) _ (fun _ _ p hp => by simp at hp)
  have hsym : ∀ a b, ∀ kp ∈ S.kpairs a b, Symmetry S.K kp.1 := by
    intro a b kp hkp
    rw [hk] at hkp
    obtain ⟨ik, h1, jk, h2, e⟩ := hmesh a b kp hkp
    rw [e]; exact net_sym (hm.sym ik h1) (hm.sym jk h2)
  have h1 : ∀ q ∈ Finset.range S.Q, ∀ b ∈ Finset.range S.nB, S.weight q * F s q b * (∑ G ∈ (D s q b).support, star (D s q b G) * S.grad C F s q b G).re =
      ∑ ik ∈ Finset.range S.Q, ∑ bk ∈ Finset.range S.nB, wsum (fun t => (2 * S.kap * F s ik bk * F s q b) * (form S.K ((S.orb C s ik bk).act t) (S.orb D s q b) (S.orb C s q b)).re) (S.kpairs ik q) := by
    intro q hq b hb
    have e1 : ∀ G, S.grad C F s q b G = _ := fun G => grad_eq S hB hn hp C F s q b (Finset.mem_range.1 hq) (Finset.mem_range.1 hb) G
    simp only [e1, Finset.mul_sum]
    rw [Finset.sum_comm, Complex.re_sum, Finset.mul_sum]
    refine Finset.sum_congr rfl fun ik hik => ?_
    unfold Sys.pairGrad
    simp only [Finset.mul_sum]
    rw [Finset.sum_comm, Complex.re_sum, Finset.mul_sum]
    refine Finset.sum_congr rfl fun bk _ => ?_
    have hs := hsym ik q
    generalize S.kpairs ik q = l at hs
    induction l with
    | nil => simp [wsum]
    | cons kp l ih =>
      have ih := ih fun x hx => hs x (List.mem_cons_of_mem _ hx)
      simp only [List.map_cons, List.sum_cons, mul_add, Finset.sum_add_distrib, Complex.add_re, wsum] at ih ⊢
      rw [ih]
      congr 1
      have hx := hc_inner (K := S.K) (act_fin (hs kp List.mem_cons_self) (show (S.orb C s ik bk).Fin from (C s ik bk).hasFiniteSupport)) (D s q b) (S.k q) (S.orb C s q b)
      have hpre := prefac_eq S hw kp.2 ik q (Finset.mem_range.1 hik) (Finset.mem_range.1 hq) (F s ik bk) (F s q b)
      by_cases h0 : S.weight ik * F s ik bk = 0 ∧ S.weight q * F s q b = 0
      · have h2 : F s ik bk = 0 := (mul_eq_zero.1 h0.1).resolve_left (hw ik (Finset.mem_range.1 hik))
        simp only [if_pos h0, mul_zero, Finset.sum_const_zero, Complex.zero_re]
        rw [h2]; ring
      · simp only [if_neg h0]
        have e2 : ∀ G, star (D s q b G) * (((2 * S.prefac kp.2 (S.weight ik) (S.weight q) * (S.weight ik * F s ik bk) : ℝ) : ℂ) *
            ∑ᶠ g : V3 Int, (S.K (fun i => (S.orb C s q b).k i - ((S.orb C s ik bk).act kp.1).k i + ((G i - g i : Int) : ℝ)) : ℂ) * pairDensity ((S.orb C s ik bk).act kp.1) (S.orb C s q b) (fun i => G i - g i) * ((S.orb C s ik bk).act kp.1).c g) =
            ((2 * S.prefac kp.2 (S.weight ik) (S.weight q) * (S.weight ik * F s ik bk) : ℝ) : ℂ) * (star (D s q b G) *
            ∑ᶠ g : V3 Int, (S.K (fun i => (S.orb C s q b).k i - ((S.orb C s ik bk).act kp.1).k i + ((G i - g i : Int) : ℝ)) : ℂ) * pairDensity ((S.orb C s ik bk).act kp.1) (S.orb C s q b) (fun i => G i - g i) * ((S.orb C s ik bk).act kp.1).c g) := fun G => by ring
        rw [Finset.sum_congr rfl fun G _ => e2 G, ← Finset.mul_sum, hx, Complex.re_ofReal_mul]
        show _ = (kp.2 : ℝ) * (2 * S.kap * F s ik bk * F s q b * (form S.K ((S.orb C s ik bk).act kp.1) ⟨S.k q, D s q b⟩ (S.orb C s q b)).re)
        linear_combination (2 * (form S.K ((S.orb C s ik bk).act kp.1) ⟨S.k q, D s q b⟩ (S.orb C s q b)).re) * hpre
  rw [Finset.sum_congr rfl fun q hq => Finset.sum_congr rfl fun b hb => h1 q hq b hb, sum4]
  refine Finset.sum_congr rfl fun bk _ => Finset.sum_congr rfl fun b _ => ?_
  rw [hk]
  exact mesh_sum hK hm S.Q hQ (fun ik q => 2 * S.kap * F s ik bk * F s q b) (fun ik => S.orb C s ik bk) (fun q => S.orb D s q b) (fun q => S.orb C s q b) fun _ => rfl

omit hw in
theorem meshOrb_line (C D : Wfns) (s ik b : Nat) (t : ℝ) : meshOrb S m choice (fun s q b => C s q b + (t : ℂ) • D s q b) s ik b = (meshOrb S m choice C s ik b).line (meshOrb S m choice D s ik b) t := by
  exact act_line (m.pick choice ik) (S.orb C s (m.iReduced ik) b) (S.orb D s (m.iReduced ik) b) rfl t

theorem energy_deriv (hB : 0 < S.nB) (hn : 0 < S.nProc) (hK : EvenKernel S.K) (hm : MeshOK S.K thr m choice) (hk : S.kpairs = m.pairs thr choice) (hQ : ∀ ik < m.n, m.iReduced ik < S.Q)
    (hall : ∀ q < S.Q, ∃ ik < m.n, m.iReduced ik = q) (C D : Wfns) (F : Fill) :
    HasDerivAt (fun t : ℝ => S.energy (fun s q b => C s q b + (t : ℂ) • D s q b) F)
      (∑ s ∈ Finset.range S.nSpins, ∑ q ∈ Finset.range S.Q, ∑ b ∈ Finset.range S.nB, 2 * (S.weight q * F s q b * (∑ G ∈ (D s q b).support, star (D s q b G) * S.grad C F s q b G).re)) 0 := by
  have e : (fun t : ℝ => S.energy (fun s q b => C s q b + (t : ℂ) • D s q b) F) = fun t : ℝ => ∑ s ∈ Finset.range S.nSpins, ∑ b ∈ Finset.range S.nB, ∑ b' ∈ Finset.range S.nB, ∑ ik ∈ Finset.range m.n, ∑ jk ∈ Finset.range m.n,
      (S.kap * F s (m.iReduced ik) b * F s (m.iReduced jk) b') *
        (form S.K ((meshOrb S m choice C s ik b).line (meshOrb S m choice D s ik b) t) ((meshOrb S m choice C s jk b').line (meshOrb S m choice D s jk b') t) ((meshOrb S m choice C s jk b').line (meshOrb S m choice D s jk b') t)).re := by
    funext t
    rw [energy_mesh S hw hB hn hK hm hk hQ hall]
    simp only [meshOrb_line]
  rw [e]
  have hfin : ∀ (X : Wfns) s ik b, ik < m.n → (meshOrb S m choice X s ik b).Fin := fun X s ik b h => act_fin (hm.sym ik h) (show (S.orb X s (m.iReduced ik) b).Fin from (X s (m.iReduced ik) b).hasFiniteSupport)
  have hd := deriv_sum5 S.nSpins S.nB m.n
    (fun s b b' ik jk t => (S.kap * F s (m.iReduced ik) b * F s (m.iReduced jk) b') *
        (form S.K ((meshOrb S m choice C s ik b).line (meshOrb S m choice D s ik b) t) ((meshOrb S m choice C s jk b').line (meshOrb S m choice D s jk b') t) ((meshOrb S m choice C s jk b').line (meshOrb S m choice D s jk b') t)).re)
    (fun s b b' ik jk => (S.kap * F s (m.iReduced ik) b * F s (m.iReduced jk) b') *
      (2 * (form S.K (meshOrb S m choice C s ik b) (meshOrb S m choice D s jk b') (meshOrb S m choice C s jk b')).re + 2 * (form S.K (meshOrb S m choice C s jk b') (meshOrb S m choice D s ik b) (meshOrb S m choice C s ik b)).re))
    (fun s b b' ik jk hik hjk => (form_line hK (hfin C s ik b hik) (hfin D s ik b hik) (hfin C s jk b' hjk) (hfin D s jk b' hjk)).const_mul _)
  refine hd.congr_deriv (Finset.sum_congr rfl fun s _ => ?_)
  have hg := grad_mesh S hw hB hn hK hm hk hQ hall C D F s
  simp only [← Finset.mul_sum]
  rw [hg]
  simp only [mul_add, Finset.sum_add_distrib]
  -- the two halves are equal
  have hs : ∑ b ∈ Finset.range S.nB, ∑ b' ∈ Finset.range S.nB, ∑ ik ∈ Finset.range m.n, ∑ jk ∈ Finset.range m.n,
        S.kap * F s (m.iReduced ik) b * F s (m.iReduced jk) b' * (2 * (form S.K (meshOrb S m choice C s jk b') (meshOrb S m choice D s ik b) (meshOrb S m choice C s ik b)).re) =
      ∑ b ∈ Finset.range S.nB, ∑ b' ∈ Finset.range S.nB, ∑ ik ∈ Finset.range m.n, ∑ jk ∈ Finset.range m.n,
        S.kap * F s (m.iReduced ik) b * F s (m.iReduced jk) b' * (2 * (form S.K (meshOrb S m choice C s ik b) (meshOrb S m choice D s jk b') (meshOrb S m choice C s jk b')).re) := by
    rw [Finset.sum_comm]
    refine Finset.sum_congr rfl fun b _ => Finset.sum_congr rfl fun b' _ => ?_
    rw [Finset.sum_comm]
    refine Finset.sum_congr rfl fun ik _ => Finset.sum_congr rfl fun jk _ => ?_
    ring
  rw [hs, ← two_mul]
  congr 1
  refine Finset.sum_congr rfl fun b _ => Finset.sum_congr rfl fun b' _ => Finset.sum_congr rfl fun ik _ => Finset.sum_congr rfl fun jk _ => ?_
  ring

end
end Jdftx.EXX
