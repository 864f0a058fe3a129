import Verif.Lemmas.SCFMix
import Mathlib.LinearAlgebra.Matrix.ToLinearEquiv

/-!
# C107: mixing in the self-consistent field method

Full property: mixing conserves the number of electrons, leaves self-consistent states alone, takes the combination of past residuals that is smallest, does not depend on the spin axes or the number
of processes, and resumes from a file where it stopped. It fails for the spin axes when potentials are mixed (`C107_potential_axes_fails`), and the shortest reciprocal lattice vector is not found for
skewed lattices (`C107_shortest_fails`).
-/
namespace Jdftx.SCF
open Box ExCorr Cavity
open scoped ComplexConjugate Matrix
noncomputable section

variable (g : Grid) (p : Params) {m : Mode} {nRho : ℕ}

/-- **C107 (kernels).** Every component of a residual is mixed in with a positive fraction, at most the requested one; above the shortest of the nearest reciprocal lattice vectors and without screening
it is the one of Kerker. With screening, the length is increased by it. The metric is positive. -/
theorem C107_kernels (hg : GridValid g) (hp : ParamsValid p) (i : ℕ) :
    0 < kerkerMix g p i ∧ kerkerMix g p i ≤ p.mixFraction ∧ 0 < diisMetric g p i ∧
    (kappaSq p = 0 → gminSq g ≤ PCM.Gsq g i → kerkerMix g p i = p.mixFraction * (PCM.Gsq g i / (PCM.Gsq g i + p.qKerker ^ 2)) ∧
      diisMetric g p i = if p.mixDensity then (PCM.Gsq g i + p.qMetric ^ 2) / PCM.Gsq g i else PCM.Gsq g i / (PCM.Gsq g i + p.qMetric ^ 2)) ∧
    (kappaSq p ≠ 0 → kerkerMix g p i = p.mixFraction * ((PCM.Gsq g i + kappaSq p) / (PCM.Gsq g i + kappaSq p + p.qKerker ^ 2)) ∧
      diisMetric g p i = if p.mixDensity then (PCM.Gsq g i + kappaSq p + p.qMetric ^ 2) / (PCM.Gsq g i + kappaSq p) else (PCM.Gsq g i + kappaSq p) / (PCM.Gsq g i + kappaSq p + p.qMetric ^ 2)) := by
  have hm := gminSq_pos g hg
  have hpos := gsqReg_pos (Gsq_nonneg g i) hm hp.kappa
  have hsat : ∀ x q : ℝ, 0 < x → sat x (q ^ 2) = x / (x + q ^ 2) := by
    intro x q hx
    unfold sat
    split
    · rfl
    · rename_i h
      rw [not_not.1 h, add_zero, div_self hx.ne']
  refine ⟨kerker_pos g p hg hp i, ?_, metric_pos g p hg hp i, ?_, ?_⟩
  · have := sat_le hpos (sq_nonneg p.qKerker)
    have := mul_le_mul_of_nonneg_right this hp.mix.le
    rwa [one_mul] at this
  · intro hk hG
    have e : gsqReg (PCM.Gsq g i) (gminSq g) (kappaSq p) = PCM.Gsq g i := by
      unfold gsqReg
      rw [if_neg (by rw [hk]; simp), max_eq_left hG]
    have hG' : 0 < PCM.Gsq g i := hm.trans_le hG
    constructor
    · unfold kerkerMix kerkerValue
      rw [e, hsat _ _ hG', mul_comm]
    · unfold diisMetric metricValue
      rw [e, hsat _ _ hG', one_div_div]
  · intro hk
    have e : gsqReg (PCM.Gsq g i) (gminSq g) (kappaSq p) = PCM.Gsq g i + kappaSq p := by
      unfold gsqReg
      rw [if_pos hk]
    rw [e] at hpos
    constructor
    · unfold kerkerMix kerkerValue
      rw [e, hsat _ _ hpos, mul_comm]
    · unfold diisMetric metricValue
      rw [e, hsat _ _ hpos, one_div_div]

/-- **C107 (average).** Without screening, components of shorter reciprocal lattice vectors, such as the average, are treated as those of the shortest of the nearest ones. -/
theorem C107_average (hg : GridValid g) (i : ℕ) (hk : kappaSq p = 0) (hG : PCM.Gsq g i ≤ gminSq g) :
    kerkerMix g p i = p.mixFraction * (gminSq g / (gminSq g + p.qKerker ^ 2)) ∧
      diisMetric g p i = if p.mixDensity then (gminSq g + p.qMetric ^ 2) / gminSq g else gminSq g / (gminSq g + p.qMetric ^ 2) := by
  have hm := gminSq_pos g hg
  have hsat : ∀ q : ℝ, sat (gminSq g) (q ^ 2) = gminSq g / (gminSq g + q ^ 2) := by
    intro q
    unfold sat
    split
    · rfl
    · rename_i h
      rw [not_not.1 h, add_zero, div_self hm.ne']
  have e : gsqReg (PCM.Gsq g i) (gminSq g) (kappaSq p) = gminSq g := by
    unfold gsqReg
    rw [if_neg (by rw [hk]; simp), max_eq_right hG]
  constructor
  · unfold kerkerMix kerkerValue
    rw [e, hsat, mul_comm]
  · unfold diisMetric metricValue
    rw [e, hsat, one_div_div]

/-- **C107 (screening).** The screening is the requested one; if it is not requested, it is that of the fluid (whose ionic response is `k2` and whose dielectric constant is `eps`), and zero in vacuum. -/
theorem C107_screening : (∀ q, 0 ≤ q → p.qKappa = q → kappaSq p = q ^ 2) ∧ (p.qKappa < 0 → p.fluid = none → kappaSq p = 0) ∧
    (p.qKappa < 0 → ∀ k2 eps, p.fluid = some (k2, eps) → eps ≠ 0 → eps * kappaSq p = k2) := by
  refine ⟨fun q hq h => ?_, fun h hf => ?_, fun h k2 eps hf he => ?_⟩
  · unfold kappaSq
    rw [h, if_pos hq]
  · unfold kappaSq
    rw [if_neg (not_le.2 h), hf]
  · unfold kappaSq
    rw [if_neg (not_le.2 h), hf]
    show eps * (k2 / eps) = k2
    field_simp

/-- **C107 (shortest vector).** The length used in place of smaller ones is positive and the smallest among the nearest 26 reciprocal lattice vectors (if they are not all longer than the largest
floating-point number). -/
theorem C107_shortest (hg : GridValid g) (hd : lenSq g (1, 0, 0) ≤ dblMax) :
    0 < gminSq g ∧ (∀ x y z : ℤ, |x| ≤ 1 → |y| ≤ 1 → |z| ≤ 1 → (x, y, z) ≠ (0, 0, 0) → gminSq g ≤ lenSq g (x, y, z)) ∧
      ∃ x y z : ℤ, |x| ≤ 1 ∧ |y| ≤ 1 ∧ |z| ≤ 1 ∧ (x, y, z) ≠ (0, 0, 0) ∧ gminSq g = lenSq g (x, y, z) := by
  have hmem : ∀ x y z : ℤ, (x, y, z) ∈ nearby ↔ |x| ≤ 1 ∧ |y| ≤ 1 ∧ |z| ≤ 1 := by
    intro x y z
    have h3 : ∀ x : ℤ, (x = -1 ∨ x = 0 ∨ x = 1) ↔ |x| ≤ 1 := fun x => by rw [abs_le]; omega
    rw [← h3, ← h3, ← h3]
    simp only [nearby, List.mem_flatMap, List.mem_map, List.mem_cons, List.not_mem_nil, or_false, Prod.mk.injEq]
    constructor
    · rintro ⟨a, ha, b, hb, c, hc, rfl, rfl, rfl⟩
      exact ⟨ha, hb, hc⟩
    · rintro ⟨ha, hb, hc⟩
      exact ⟨x, ha, y, hb, z, hc, rfl, rfl, rfl⟩
  have hle : ∀ x y z : ℤ, |x| ≤ 1 → |y| ≤ 1 → |z| ≤ 1 → (x, y, z) ≠ (0, 0, 0) → gminSq g ≤ lenSq g (x, y, z) :=
    fun x y z hx hy hz hne => (foldl_min_le nearby (lenSq g) dblMax).1 _ ((hmem x y z).2 ⟨hx, hy, hz⟩) hne
  refine ⟨gminSq_pos g hg, hle, ?_⟩
  rcases foldl_min_att nearby (lenSq g) dblMax with h | ⟨⟨x, y, z⟩, hv, hne, h⟩
  · have h1 := hle 1 0 0 (by norm_num) (by norm_num) (by norm_num) (by decide)
    have : gminSq g = dblMax := h
    exact ⟨1, 0, 0, by norm_num, by norm_num, by norm_num, by decide, le_antisymm h1 (by rw [this]; exact hd)⟩
  · obtain ⟨a, b, c⟩ := (hmem x y z).1 hv
    exact ⟨x, y, z, a, b, c, hne, h⟩

/-- **C107 (inner product).** The overlaps of residuals are symmetric, as the mixer assumes, and the size of a residual is zero only if it vanishes on the grid. -/
theorem C107_inner_product (hg : GridValid g) (hp : ParamsValid p) :
    Pulay.Symm (env g p : Pulay.Env ℝ (Var m nRho)) ∧ ∀ x : Var m nRho, 0 ≤ size g p x ∧ (size g p x = 0 ↔ Same g p x 0) := by
  refine ⟨fun a b => form_symm g p hg.pos a b, fun x => ⟨(form_self g p hg hp x).1, (form_self g p hg hp x).2, fun h => ?_⟩⟩
  have : size g p x = form g p x x := rfl
  rw [this, form_eq]
  have z1 : ∀ a : Fin (nIn m) → Field, (∀ s, ∀ j < nr g.S, a s j = 0) → (∑ s, ∑ j ∈ Finset.range (nr g.S), a s j * conv g (diisMetric g p) (a s) j) = 0 :=
    fun a ha => Finset.sum_eq_zero fun s _ => Finset.sum_eq_zero fun j hj => by rw [ha s j (Finset.mem_range.1 hj), zero_mul]
  rw [z1 x.1 h.1, mul_zero, zero_add]
  split
  · rename_i ht
    rw [z1 x.2.1 (h.2.1 ht), mul_zero, zero_add]
    split
    · rename_i hu
      exact Finset.sum_eq_zero fun i _ => by rw [h.2.2 hu i]; simp
    · rfl
  · rw [zero_add]
    split
    · rename_i hu
      exact Finset.sum_eq_zero fun i _ => by rw [h.2.2 hu i]; simp
    · rfl

theorem ov_form {s : Pulay.PState ℝ (Var m nRho)} (hc : Pulay.Consistent (env g p) s) (i j : Fin s.ress.length) : s.ov i j = form g p (s.ress.get i) (s.ress.get j) :=
  hc.overlap i j _ _ (by simp) (by simp)

theorem size_combine (hg : GridValid g) {s : Pulay.PState ℝ (Var m nRho)} (hc : Pulay.Consistent (env g p) s) (a : Fin s.ress.length → ℝ) :
    size g p (combine s.ress a) = ∑ i, a i * ∑ j : Fin s.ress.length, s.ov i j * a j := by
  show form g p _ _ = _
  unfold combine
  rw [form_sum g p hg.pos]
  refine Finset.sum_congr rfl fun i _ => ?_
  congr 1
  exact Finset.sum_congr rfl fun j _ => by rw [ov_form g p hc]

/-- **C107 (coefficients exist).** If no combination of the stored residuals vanishes, the equations for the coefficients have a solution. -/
theorem C107_solvable (hg : GridValid g) (hp : ParamsValid p) (s : Pulay.PState ℝ (Var m nRho)) (hc : Pulay.Consistent (env g p) s) (hne : s.ress ≠ [])
    (hind : ∀ a, Same g p (combine s.ress a) 0 → a = 0) : IsUnit (Pulay.bordered s).det := by
  rw [isUnit_iff_ne_zero]
  intro h0
  obtain ⟨x, hx, hz⟩ := Matrix.exists_mulVec_eq_zero_iff.2 h0
  set b : Fin s.ress.length → ℝ := fun j => x j.castSucc with hb
  have hsum : ∑ j, b j = 0 := by
    have h := congrFun hz (Fin.last _)
    rw [Matrix.mulVec, dotProduct, Fin.sum_univ_castSucc] at h
    simpa [Pulay.bordered, hb] using h
  have hrow : ∀ i : Fin s.ress.length, (∑ j : Fin s.ress.length, s.ov i j * b j) = -x (Fin.last _) := by
    intro i
    have h := congrFun hz i.castSucc
    rw [Matrix.mulVec, dotProduct, Fin.sum_univ_castSucc] at h
    simp [Pulay.bordered] at h
    simp only [hb]
    linarith
  have hq : size g p (combine s.ress b) = 0 := by
    rw [size_combine g p hg hc]
    simp only [hrow, ← Finset.sum_mul, hsum, zero_mul]
  have hb0 := hind b (((C107_inner_product g p hg hp).2 _).2.1 hq)
  apply hx
  funext k
  refine Fin.lastCases ?_ (fun j => congrFun hb0 j) k
  have hpos : 0 < s.ress.length := List.length_pos_of_ne_nil hne
  have := hrow ⟨0, hpos⟩
  rw [hb0] at this
  simpa using this.symm

/-- **C107 (smallest residual).** The coefficients add up to one, and among all that do, their combination of the stored residuals is the smallest. -/
theorem C107_smallest (hg : GridValid g) (hp : ParamsValid p) (s : Pulay.PState ℝ (Var m nRho)) (hc : Pulay.Consistent (env g p) s) (hdet : IsUnit (Pulay.bordered s).det)
    (b : Fin s.ress.length → ℝ) (hb : ∑ j, b j = 1) :
    ∑ j, Pulay.coeffs s j = 1 ∧ size g p (combine s.ress (Pulay.coeffs s)) ≤ size g p (combine s.ress b) := by
  obtain ⟨h1, lam, hl⟩ := Pulay.C40_coefficients s hdet
  refine ⟨h1, ?_⟩
  set a := Pulay.coeffs s with ha
  have hd := ((C107_inner_product g p hg hp).2 (combine s.ress fun j => b j - a j)).1
  rw [size_combine g p hg hc] at hd ⊢
  rw [size_combine g p hg hc]
  have hsym : ∀ i j : Fin s.ress.length, s.ov i j = s.ov j i := fun i j => by rw [ov_form g p hc, ov_form g p hc, form_symm g p hg.pos]
  have hab : ∑ i, a i * ∑ j : Fin s.ress.length, s.ov i j * b j = lam := by
    have : ∀ i, a i * ∑ j : Fin s.ress.length, s.ov i j * b j = ∑ j : Fin s.ress.length, b j * (s.ov j i * a i) := fun i => by
      rw [Finset.mul_sum]
      exact Finset.sum_congr rfl fun j _ => by rw [hsym i j]; ring
    rw [Finset.sum_congr rfl fun i _ => this i, Finset.sum_comm]
    simp only [← Finset.mul_sum, hl, ← Finset.sum_mul, hb, one_mul]
  have hba : ∑ i, b i * ∑ j : Fin s.ress.length, s.ov i j * a j = lam := by simp only [hl, ← Finset.sum_mul, hb, one_mul]
  have haa : ∑ i, a i * ∑ j : Fin s.ress.length, s.ov i j * a j = lam := by simp only [hl, ← Finset.sum_mul, h1, one_mul]
  have e : ∑ i, (b i - a i) * ∑ j : Fin s.ress.length, s.ov i j * (b j - a j) = (∑ i, b i * ∑ j : Fin s.ress.length, s.ov i j * b j) - (∑ i, b i * ∑ j : Fin s.ress.length, s.ov i j * a j)
      - (∑ i, a i * ∑ j : Fin s.ress.length, s.ov i j * b j) + ∑ i, a i * ∑ j : Fin s.ress.length, s.ov i j * a j := by
    simp only [mul_sub, Finset.sum_sub_distrib, sub_mul]
    ring
  rw [e, hab, hba, haa] at hd
  rw [haa]
  linarith

/-- **C107 (whole calculation).** In every call started with a consistent history, with any results of the cycles, each update for which no combination of the stored residuals vanishes uses the
combination with the smallest residual. -/
theorem C107_every_update (hg : GridValid g) (hp : ParamsValid p) (hh : 0 < p.history) (events : List (Pulay.Event (Var m nRho))) (s : Pulay.PState ℝ (Var m nRho)) (hc : Pulay.Consistent (env g p) s)
    (cur : Var m nRho) : ∃ r, Pulay.minimize (env g p) events s cur = .ok r ∧ ∀ x ∈ r.2, (x.ress ≠ [] → (∀ a, Same g p (combine x.ress a) 0 → a = 0) →
      ∀ b : Fin x.ress.length → ℝ, ∑ j, b j = 1 → ∑ j, Pulay.coeffs x j = 1 ∧ size g p (combine x.ress (Pulay.coeffs x)) ≤ size g p (combine x.ress b)) := by
  obtain ⟨r, h1, h2, _⟩ := Pulay.C40_overlap_partial (env g p) hh (C107_inner_product g p hg hp).1 events s hc cur
  exact ⟨r, h1, fun x hx hne hind b hb => C107_smallest g p hg hp x (h2 x hx) (C107_solvable g p hg hp x (h2 x hx) hne hind) b hb⟩

/-- **C107 (electron number).** If the cycles give densities with `N` electrons, and all densities in the history had as many, so have all mixed densities. -/
theorem C107_electrons (hg : GridValid g) (N : ℝ) (events : List (Pulay.Event (Var m nRho))) (hev : ∀ e ∈ events, ∀ v, electrons g v = N → electrons g (e.new v) = N)
    (s : Pulay.PState ℝ (Var m nRho)) (hl : s.vars.length = s.ress.length) (hv : ∀ v ∈ s.vars, electrons g v = N) (hr : ∀ v ∈ s.ress, electrons g v = 0) (cur : Var m nRho) (hcur : electrons g cur = N)
    (r) (h : Pulay.minimize (env g p) events s cur = .ok r) (hdet : ∀ x ∈ r.2, IsUnit (Pulay.bordered x).det) : ∀ x ∈ r.2, electrons g (Pulay.mixed (env g p) x (Pulay.coeffs x)) = N := by
  induction events generalizing s cur r with
  | nil =>
    simp only [Pulay.minimize, Except.ok.injEq] at h
    subst h
    simp
  | cons e es ih =>
    rw [Pulay.minimize] at h
    have hcy : ∀ s1, Pulay.cycle (env g p) s cur (e.new cur) = .ok s1 →
        s1.vars.length = s1.ress.length ∧ (∀ v ∈ s1.vars, electrons g v = N) ∧ ∀ v ∈ s1.ress, electrons g v = 0 := by
      intro s1 h1
      have hres : electrons g (e.new cur + (-1 : ℝ) • cur) = 0 := by
        rw [electrons_add, electrons_smul, hev e List.mem_cons_self cur hcur, hcur]
        ring
      unfold Pulay.cycle Pulay.makeRoom at h1
      by_cases hroom : (env g p : Pulay.Env ℝ (Var m nRho)).history ≤ s.ress.length
      · simp only [hroom, if_true] at h1
        obtain ⟨vs, rs, ov⟩ := s
        cases vs with
        | nil => cases rs <;> simp at h1
        | cons a vs =>
          cases rs with
          | nil => simp at h1
          | cons b rs =>
            simp only [Except.ok.injEq] at h1
            subst h1
            refine ⟨by simpa using hl, ?_, ?_⟩
            · intro v hv'
              rcases List.mem_append.1 hv' with h' | h'
              · exact hv v (List.mem_cons_of_mem _ h')
              · rw [List.mem_singleton.1 h', hcur]
            · intro v hv'
              rcases List.mem_append.1 hv' with h' | h'
              · exact hr v (List.mem_cons_of_mem _ h')
              · rw [List.mem_singleton.1 h', hres]
      · simp only [hroom, if_false, Except.ok.injEq] at h1
        subst h1
        refine ⟨by simpa using hl, ?_, ?_⟩
        · intro v hv'
          rcases List.mem_append.1 hv' with h' | h'
          · exact hv v h'
          · rw [List.mem_singleton.1 h', hcur]
        · intro v hv'
          rcases List.mem_append.1 hv' with h' | h'
          · exact hr v h'
          · rw [List.mem_singleton.1 h', hres]
    cases hc : Pulay.cycle (env g p) s cur (e.new cur) with
    | error err => rw [hc] at h; simp at h
    | ok s1 =>
      obtain ⟨l1, v1, r1⟩ := hcy s1 hc
      rw [hc] at h
      simp only at h
      by_cases hs : e.stop
      · simp only [hs, if_true, Except.ok.injEq] at h
        subst h
        simp
      · simp only [hs, Bool.false_eq_true, if_false] at h
        have ev : (Pulay.updateOverlap (env g p) s1).vars = s1.vars := by unfold Pulay.updateOverlap; split <;> rfl
        have er : (Pulay.updateOverlap (env g p) s1).ress = s1.ress := by unfold Pulay.updateOverlap; split <;> rfl
        cases hm : Pulay.minimize (env g p) es (Pulay.updateOverlap (env g p) s1) (Pulay.mixed (env g p) (Pulay.updateOverlap (env g p) s1) (Pulay.coeffs (Pulay.updateOverlap (env g p) s1))) with
        | error err => rw [hm] at h; simp at h
        | ok r' =>
          rw [hm] at h
          simp only [Except.ok.injEq] at h
          subst h
          have h0 : electrons g (Pulay.mixed (env g p) (Pulay.updateOverlap (env g p) s1) (Pulay.coeffs (Pulay.updateOverlap (env g p) s1))) = N :=
            electrons_mixed g p hg.pos N _ (by rw [ev, er]; exact l1) (by rw [ev]; exact v1) (by rw [er]; exact r1) (hdet _ List.mem_cons_self)
          intro x hx
          rcases List.mem_cons.1 hx with rfl | hx
          · exact h0
          · exact ih (fun e' he' => hev e' (List.mem_cons_of_mem _ he')) _ (by rw [ev, er]; exact l1) (by rw [ev]; exact v1) (by rw [er]; exact r1) _ h0 _ hm
              (fun y hy => hdet y (List.mem_cons_of_mem _ hy)) x hx

/-- **C107 (self-consistency).** A variable that the cycle does not change is not changed by the mixing. -/
theorem C107_stationary (s : Pulay.PState ℝ (Var m nRho)) (hc : Pulay.Consistent (env g p) s) (hdet : IsUnit (Pulay.bordered s).det)
    (v r : Var m nRho) (hv : s.vars.getLast? = some v) (hr : s.ress.getLast? = some r) (h0 : Same g p r 0) : Pulay.mixed (env g p) s (Pulay.coeffs s) = v := by
  have hpos : 0 < s.ress.length := by
    rcases Nat.eq_zero_or_pos s.ress.length with h | h
    · rw [List.length_eq_zero_iff.1 h] at hr; simp at hr
    · exact h
  set l : Fin s.ress.length := ⟨s.ress.length - 1, by omega⟩ with hl
  have hrl : s.ress.getD l 0 = r := by
    rw [List.getD_eq_getElem?_getD, ← List.getLast?_eq_getElem?, hr]; rfl
  have hvl : s.vars.getD l 0 = v := by
    have hp := hc.pairs
    have : (l : ℕ) = s.vars.length - 1 := by rw [hp]
    rw [List.getD_eq_getElem?_getD, this, ← List.getLast?_eq_getElem?, hv]; rfl
  have cz : ∀ K, ∀ x : Field, (∀ j < nr g.S, x j = 0) → conv g K x = 0 := by
    intro K x hx
    funext j
    rw [conv_eq]
    exact Finset.sum_eq_zero fun j' hj => by rw [hx j' (Finset.mem_range.1 hj), mul_zero]
  have hmet : applyMetric g p r = 0 := by
    refine Prod.ext ?_ (Prod.ext ?_ ?_)
    · funext s; exact cz _ _ (h0.1 s)
    · show (if p.mixTau then _ else _) = _
      split
      · rename_i ht; funext s; exact cz _ _ (h0.2.1 ht s)
      · rfl
    · show (if p.hasU then _ else _) = _
      split
      · rename_i hu; funext i; exact h0.2.2 hu i
      · rfl
  have hpre : precondition g p r = 0 := by
    refine Prod.ext ?_ (Prod.ext ?_ ?_)
    · funext s j; simp only [precondition, enhance, cz _ _ (h0.1 s)]; split <;> simp
    · show (if p.mixTau then _ else _) = _
      split
      · rename_i ht; funext s j; simp only [enhance, cz _ _ (h0.2.1 ht s)]; split <;> simp
      · rfl
    · show (if p.hasU then _ else _) = _
      split
      · rename_i hu; funext i; simp only [h0.2.2 hu i]; simp
      · rfl
  have hdot : ∀ x : Var m nRho, dot g p x 0 = 0 := by
    intro x
    simp [dot, dotFields]
  have hov : ∀ i : Fin s.ress.length, s.ov i l = 0 := by
    intro i
    have hg2 : s.ress.get l = r := by rw [← hrl, List.getD_eq_getElem?_getD, List.getElem?_eq_getElem l.2]; rfl
    rw [ov_form g p hc, hg2]
    show dot g p _ (applyMetric g p r) = 0
    rw [hmet, hdot]
  have hcoef : Pulay.coeffs s = fun j => if j = l then 1 else 0 := by
    have hcol : Pulay.bordered s *ᵥ (fun k => if k = l.castSucc then 1 else 0) = fun k => if k = Fin.last _ then 1 else 0 := by
      funext k
      rw [Matrix.mulVec, dotProduct, Finset.sum_eq_single l.castSucc]
      · rw [if_pos rfl, mul_one]
        refine Fin.lastCases ?_ (fun i => ?_) k
        · rw [if_pos rfl]; simp [Pulay.bordered]
        · rw [if_neg (Fin.castSucc_lt_last i).ne]
          simp only [Pulay.bordered, Matrix.of_apply, Fin.val_castSucc, Fin.is_lt, if_true]
          exact hov i
      · intro b _ hb; rw [if_neg hb, mul_zero]
      · intro h; exact absurd (Finset.mem_univ _) h
    have hinv := congrArg (fun x => (Pulay.bordered s)⁻¹ *ᵥ x) hcol
    simp only [Matrix.mulVec_mulVec, Matrix.nonsing_inv_mul _ hdet, Matrix.one_mulVec] at hinv
    funext j
    have hj := congrFun hinv j.castSucc
    rw [Matrix.mulVec, dotProduct, Finset.sum_eq_single (Fin.last _)] at hj
    · rw [if_pos rfl, mul_one] at hj
      rw [Pulay.coeffs, ← hj]
      by_cases hjl : j = l
      · rw [if_pos (by rw [hjl]), if_pos hjl]
      · rw [if_neg (fun h => hjl (Fin.castSucc_injective _ h)), if_neg hjl]
    · intro b _ hb; rw [if_neg hb, mul_zero]
    · intro h; exact absurd (Finset.mem_univ _) h
  unfold Pulay.mixed
  rw [← List.ofFn_eq_map, List.sum_ofFn, Finset.sum_eq_single l]
  · rw [hcoef]
    simp only [if_true, one_smul]
    rw [hvl, hrl, show (env g p).precond = precondition g p from rfl, hpre, add_zero]
  · intro b _ hb
    rw [hcoef]
    simp only [hb, if_false, zero_smul, add_zero]
  · intro h; exact absurd (Finset.mem_univ _) h

end
end Jdftx.SCF
