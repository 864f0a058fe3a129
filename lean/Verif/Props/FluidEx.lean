import Verif.Lemmas.FluidEos

/-!
# C93: excess free energies of classical fluids
-/
namespace Jdftx.Fluid
open Box ExCorr Cavity Filter Topology
open scoped ComplexConjugate
noncomputable section

/-- The spacing of grid points. -/
def GridOK (g : Grid) : Prop := g.S.Pos ∧ g.dV * nr g.S = g.detR

/-- The last dimension of the grid is even or 1 (see C23). -/
def EvenGrid (g : Grid) : Prop := g.S.s2 = 1 ∨ g.S.s2 % 2 = 0

/-! ### A grid for the examples -/

def gEx : Grid := ⟨⟨2, 2, 2⟩, fun i k => if i = k then 1 else 0, 8, 1⟩
theorem gEx_ok : GridOK gEx := ⟨⟨by decide, by decide, by decide⟩, by norm_num [gEx, nr]⟩
theorem gEx_even : EvenGrid gEx := Or.inr rfl
/-- A uniform field. -/
def uni (N : ℝ) : Arr := fun i => if i = 0 then (N : ℂ) else 0
theorem uni_uniform (g : Grid) (N : ℝ) : Uniform g (uni N) N := ⟨by simp [uni], fun i h _ => by unfold uni; rw [if_neg (by omega)]⟩

/-! ### At one point -/

/-- **C93 (tensors).** The products that enter the functional are those of the symmetric traceless matrix. -/
theorem C93_tensor (m : Tensor ℝ) (v : Fin 3 → ℝ) : mulVTmv m v = v ⬝ᵥ (full m).mulVec v ∧ traceCubed m = (full m * full m * full m).trace := by
  constructor
  · simp [mulVTmv, full, dotProduct, Matrix.mulVec, Fin.sum_univ_three]; ring
  · simp [traceCubed, full, Matrix.trace, Fin.sum_univ_three]; ring

/-- **C93 (scale functions).** The scale functions are those of the White-Bear functional, up to the fifth power of the packing fraction where it is small. -/
theorem C93_white_bear (x : ℝ) (h0 : 0 < x) (h1 : x < 1) :
    |wbF2 x - whiteBear2 x| ≤ (if x < 0.002 then x ^ 5 else 0) ∧ |wbF3 x - whiteBear3 x| ≤ (if x < 0.005 then x ^ 5 else 0) := by
  have hx : |x| < 1 := by rw [abs_of_pos h0]; exact h1
  have h1' : (0 : ℝ) < 1 - x := by linarith
  constructor
  · split
    · rename_i h
      have b := Real.abs_log_sub_add_sum_range_le hx 5
      rw [abs_of_pos h0] at b
      set r := (∑ i ∈ Finset.range 5, x ^ (i + 1) / ((i : ℝ) + 1)) + Real.log (1 - x) with hr
      have hL : Real.log (1 - x) = r - (x + x ^ 2 / 2 + x ^ 3 / 3 + x ^ 4 / 4 + x ^ 5 / 5) := by
        rw [hr]; simp only [Finset.sum_range_succ, Finset.sum_range_zero]; norm_num
      have e : wbF2 x - whiteBear2 x = -(2 / 15) * x ^ 5 - 2 * (1 - x) / (3 * x) * r := by
        unfold wbF2 whiteBear2
        rw [if_pos h, hL]
        field_simp; ring
      rw [e]
      have hb : |2 * (1 - x) / (3 * x) * r| ≤ 2 / 3 * x ^ 5 := by
        rw [abs_mul, abs_of_pos (by positivity : 0 < 2 * (1 - x) / (3 * x))]
        calc 2 * (1 - x) / (3 * x) * |r| ≤ 2 * (1 - x) / (3 * x) * (x ^ (5 + 1) / (1 - x)) := by gcongr
          _ = 2 / 3 * x ^ 5 := by field_simp
      have h5 : 0 ≤ x ^ 5 := by positivity
      rw [abs_le] at hb ⊢
      constructor <;> linarith [hb.1, hb.2]
    · rename_i h
      have : wbF2 x = whiteBear2 x := by unfold wbF2 whiteBear2; rw [if_neg h]
      rw [this]; simp
  · split
    · rename_i h
      have b := Real.abs_log_sub_add_sum_range_le hx 6
      rw [abs_of_pos h0] at b
      set r := (∑ i ∈ Finset.range 6, x ^ (i + 1) / ((i : ℝ) + 1)) + Real.log (1 - x) with hr
      have hL : Real.log (1 - x) = r - (x + x ^ 2 / 2 + x ^ 3 / 3 + x ^ 4 / 4 + x ^ 5 / 5 + x ^ 6 / 6) := by
        rw [hr]; simp only [Finset.sum_range_succ, Finset.sum_range_zero]; norm_num
      have e : wbF3 x - whiteBear3 x = 4 / 45 * x ^ 5 - x ^ 6 / 9 + 2 * (1 - x) ^ 2 / (3 * x ^ 2) * r := by
        unfold wbF3 whiteBear3
        rw [if_pos h, hL]
        field_simp; ring
      rw [e]
      have hb : |2 * (1 - x) ^ 2 / (3 * x ^ 2) * r| ≤ 2 / 3 * x ^ 5 := by
        rw [abs_mul, abs_of_pos (by positivity : 0 < 2 * (1 - x) ^ 2 / (3 * x ^ 2))]
        calc 2 * (1 - x) ^ 2 / (3 * x ^ 2) * |r| ≤ 2 * (1 - x) ^ 2 / (3 * x ^ 2) * (x ^ (6 + 1) / (1 - x)) := by gcongr
          _ = 2 / 3 * (1 - x) * x ^ 5 := by field_simp
          _ ≤ 2 / 3 * x ^ 5 := by
            have : 0 ≤ x ^ 5 := by positivity
            nlinarith
      have h5 : 0 ≤ x ^ 5 := by positivity
      have h6 : x ^ 6 ≤ 0.005 * x ^ 5 := by
        have : x ^ 6 = x * x ^ 5 := by ring
        rw [this]; exact mul_le_mul_of_nonneg_right h.le h5
      have h6' : 0 ≤ x ^ 6 := by positivity
      rw [abs_le] at hb ⊢
      constructor <;> linarith [hb.1, hb.2]
    · rename_i h
      have : wbF3 x = whiteBear3 x := by
        unfold wbF3 whiteBear3; rw [if_neg h]; congr 1; ring
      rw [this]; simp

example : |wbF2 0.3 - whiteBear2 0.3| ≤ 0 := by
  have := (C93_white_bear 0.3 (by norm_num) (by norm_num)).1
  rwa [if_neg (by norm_num)] at this

/-! ### Hard spheres and bonds -/

/-- **C93 (gradient of a mixture of hard spheres).** The returned gradient with respect to the site densities is the derivative of the returned energy in every direction.
Partial: not where a weighted density is exactly zero, not where the packing fraction is 1 or more at a grid point, and not where the program changes formulas. -/
theorem C93_mixture_gradient_partial (g : Grid) (hg : GridOK g) {C : Nat} (m : Mix C) (N : Dens m) (hr : MixRegular g m N) (dN : Dens m) :
    HasDerivO (fun t => hardSphere g m fun c s i => N c s i + (t : ℂ) * dN c s i) (g.dV * ∑ c, ∑ s, innerG g (hardSphereGrad g m N c s) (dN c s)) 0 :=
  hardSphere_deriv g m hg.1 N dN hr

/-- **C93 (uniform mixture).** The energy of a uniform fluid is the volume times the energy density computed for the uniform fluid. -/
theorem C93_uniform (g : Grid) (hg : GridOK g) {C : Nat} (m : Mix C) (N : Dens m) (n : (c : Fin C) → Fin (m.ns c) → ℝ) (h : ∀ c s, Uniform g (N c s) (n c s))
    (hn : ∀ c s, 0 ≤ n c s) (hw : ∀ c s, 0 < (m.sphere c s).w0 0) : hardSphere g m N = (hardSphereU m n).map (g.detR * ·) :=
  hardSphere_uniform g m hg.1 hg.2 N n h hn hw

/-- **C93 (gradient of the uniform mixture).** Partial as `C93_mixture_gradient_partial`. -/
theorem C93_uniform_gradient_partial {C : Nat} (m : Mix C) (n dn : (c : Fin C) → Fin (m.ns c) → ℝ) (hr : URegular m n) :
    HasDerivO (fun t => hardSphereU m fun c s => n c s + t * dn c s) (∑ c, ∑ s, hardSphereGradU m n c s * dn c s) 0 :=
  hardSphereU_deriv m n dn hr

/-- A single kind of sphere, with the kernels of the program at zero wave vector. -/
def IsSingle (m : Mix 1) (hs : m.ns 0 = 1) (R : ℝ) : Prop :=
  let s := m.sphere 0 ⟨0, by omega⟩
  (s.w0 0, s.w1 0, s.w2 0, s.w3 0) = fmtWeight0 R ∧ m.bonds 0 = []

/-- The densities of a single kind of sphere. -/
def single (m : Mix 1) (N : ℝ) : (c : Fin 1) → Fin (m.ns c) → ℝ := fun _ _ => N

theorem single_val (m : Mix 1) (hs : m.ns 0 = 1) (R : ℝ) (hm : IsSingle m hs R) (N : ℝ) (hN : 0 < N) (hR : 0 < R) (h1 : 4 * Real.pi * R ^ 3 / 3 * N < 1) :
    hardSphereU m (single m N) = some (m.T * (N * carnahanStarling (4 * Real.pi * R ^ 3 / 3 * N)
      + pole (4 * Real.pi * R ^ 3 / 3 * N) * (3 * N * (4 * Real.pi * R ^ 3 / 3 * N)) * (wbF2 (4 * Real.pi * R ^ 3 / 3 * N) - whiteBear2 (4 * Real.pi * R ^ 3 / 3 * N))
      + pole (4 * Real.pi * R ^ 3 / 3 * N) ^ 2 * (1.5 * N * (4 * Real.pi * R ^ 3 / 3 * N) ^ 2) * (wbF3 (4 * Real.pi * R ^ 3 / 3 * N) - whiteBear3 (4 * Real.pi * R ^ 3 / 3 * N)))) := by
  obtain ⟨hw, hb⟩ := hm
  simp only [fmtWeight0, Prod.mk.injEq, zero_div] at hw
  obtain ⟨w0, w1, w2, w3⟩ := hw
  have tot : ∀ w : Sphere → Nat → ℝ, wtotU m w (single m N) = w (m.sphere 0 ⟨0, by omega⟩) 0 * N := by
    intro w
    unfold wtotU wsumU single
    rw [Fin.sum_univ_one]
    have : (Finset.univ : Finset (Fin (m.ns 0))) = {⟨0, by omega⟩} := by
      ext a; simp only [Finset.mem_univ, Finset.mem_singleton, true_iff]
      apply Fin.ext; have := a.2; show a.1 = 0; omega
    rw [this, Finset.sum_singleton]
  have bn : allBonds m = [] := by
    unfold allBonds
    rw [List.flatMap_eq_nil_iff]
    intro c _
    have : c = 0 := Subsingleton.elim _ _
    rw [this, hb]; rfl
  have hpi := Real.pi_pos
  have t0 : wtotU m Sphere.w0 (single m N) = N := by rw [tot, w0]; ring
  have t1 : wtotU m Sphere.w1 (single m N) = R * N := by rw [tot, w1]; ring
  have t2 : wtotU m Sphere.w2 (single m N) = 4 * Real.pi * R ^ 2 * N := by rw [tot, w2]; ring
  have t3 : wtotU m Sphere.w3 (single m N) = 4 * Real.pi * R ^ 3 / 3 * N := by rw [tot, w3]; ring
  set η := 4 * Real.pi * R ^ 3 / 3 * N with hη
  have hη0 : 0 < η := by positivity
  unfold hardSphereU
  rw [if_pos (by rw [t0]; exact hN.ne'), bn]
  have ev : phiFmt (fmtU m (single m N)) = some (phiVal (fmtU m (single m N)), phiGrad (fmtU m (single m N))) := by
    unfold phiFmt
    simp only [fmtU, t0, t1, t2, t3]
    rw [if_neg (by push Not; exact ⟨hN.le, by positivity, by positivity, hη0.le⟩), if_neg (by push Not; exact h1)]
  rw [ev]
  simp only [Option.map_some, List.map_nil, addO]
  have e : phiVal (fmtU m (single m N)) = N * carnahanStarling η + pole η * (3 * N * η) * (wbF2 η - whiteBear2 η) + pole η ^ 2 * (1.5 * N * η ^ 2) * (wbF3 η - whiteBear3 η) := by
    have c2 : comb2 (fmtU m (single m N)) = 3 * N * η := by
      simp only [comb2, fmtU, dot3, t1, t2, hη]; ring
    have c3 : 1 / (24 * Real.pi) * comb3 (fmtU m (single m N)) = 1.5 * N * η ^ 2 := by
      simp only [comb3, tensorPart, mulVTmv, traceCubed, fmtU, dot3, t2, hη]
      field_simp; ring
    have : phiVal (fmtU m (single m N)) = N * Real.log (pole η) + pole η * (wbF2 η * (3 * N * η) + pole η * (wbF3 η * (1.5 * N * η ^ 2))) := by
      rw [← c3]
      unfold phiVal
      rw [c2]
      simp only [fmtU, t0, t3]
      ring
    rw [this]
    have hl : Real.log (pole η) = -Real.log (1 - η) := by unfold pole; rw [one_div, Real.log_inv]
    rw [hl]
    unfold carnahanStarling whiteBear2 whiteBear3 pole
    have h2 : 1 - η ≠ 0 := by linarith
    have h3 := hη0.ne'
    generalize wbF2 η = f2
    generalize wbF3 η = f3
    generalize Real.log (1 - η) = L
    clear_value η
    field_simp
    ring
  rw [e]
  simp

/-- **C93 (Carnahan-Starling).** For one kind of sphere, the excess free energy of the uniform fluid is that of Carnahan and Starling: exactly if the packing fraction is at least 0.005,
and up to its fifth power if it is smaller. -/
theorem C93_carnahan_starling (m : Mix 1) (hs : m.ns 0 = 1) (R N : ℝ) (hm : IsSingle m hs R) (hT : 0 ≤ m.T) (hN : 0 < N) (hR : 0 < R) (h1 : 4 * Real.pi * R ^ 3 / 3 * N < 1) :
    ∃ E, hardSphereU m (single m N) = some E ∧ |E - m.T * N * carnahanStarling (4 * Real.pi * R ^ 3 / 3 * N)|
      ≤ (if 4 * Real.pi * R ^ 3 / 3 * N < 0.005 then m.T * N * (4 * Real.pi * R ^ 3 / 3 * N) ^ 5 else 0) := by
  refine ⟨_, single_val m hs R hm N hN hR h1, ?_⟩
  have hpi := Real.pi_pos
  have hη0 : 0 < 4 * Real.pi * R ^ 3 / 3 * N := by positivity
  generalize 4 * Real.pi * R ^ 3 / 3 * N = η at hη0 h1 ⊢
  obtain ⟨b2, b3⟩ := C93_white_bear η hη0 h1
  have hp : 0 < pole η := by unfold pole; exact one_div_pos.2 (by linarith)
  have e : m.T * (N * carnahanStarling η + pole η * (3 * N * η) * (wbF2 η - whiteBear2 η) + pole η ^ 2 * (1.5 * N * η ^ 2) * (wbF3 η - whiteBear3 η)) - m.T * N * carnahanStarling η
      = m.T * N * (pole η * (3 * η) * (wbF2 η - whiteBear2 η) + pole η ^ 2 * (1.5 * η ^ 2) * (wbF3 η - whiteBear3 η)) := by ring
  rw [e, abs_mul, abs_of_nonneg (by positivity : 0 ≤ m.T * N)]
  split
  · rename_i h
    rw [if_pos h] at b3
    have b2' : |wbF2 η - whiteBear2 η| ≤ η ^ 5 := by
      refine b2.trans ?_
      split
      · exact le_rfl
      · positivity
    have hp2 : pole η ≤ 1.01 := by
      unfold pole
      rw [div_le_iff₀ (by linarith)]; norm_num at h ⊢; linarith
    have hb : |pole η * (3 * η) * (wbF2 η - whiteBear2 η) + pole η ^ 2 * (1.5 * η ^ 2) * (wbF3 η - whiteBear3 η)| ≤ η ^ 5 := by
      refine (abs_add_le _ _).trans ?_
      rw [abs_mul (pole η * (3 * η)), abs_mul (pole η ^ 2 * (1.5 * η ^ 2)), abs_of_pos (by positivity : 0 < pole η * (3 * η)), abs_of_pos (by positivity : 0 < pole η ^ 2 * (1.5 * η ^ 2))]
      have h5 : 0 ≤ η ^ 5 := by positivity
      have k1 : pole η * (3 * η) ≤ 1 / 2 := by
        calc pole η * (3 * η) ≤ 1.01 * (3 * 0.005) := by gcongr
          _ ≤ 1 / 2 := by norm_num
      have k2 : pole η ^ 2 * (1.5 * η ^ 2) ≤ 1 / 2 := by
        calc pole η ^ 2 * (1.5 * η ^ 2) ≤ 1.01 ^ 2 * (1.5 * 0.005 ^ 2) := by gcongr
          _ ≤ 1 / 2 := by norm_num
      calc pole η * (3 * η) * |wbF2 η - whiteBear2 η| + pole η ^ 2 * (1.5 * η ^ 2) * |wbF3 η - whiteBear3 η| ≤ 1 / 2 * η ^ 5 + 1 / 2 * η ^ 5 := by gcongr
        _ = η ^ 5 := by ring
    exact mul_le_mul_of_nonneg_left hb (by positivity)
  · rename_i h
    rw [if_neg h] at b3
    rw [if_neg (by push Not at h; norm_num at h ⊢; linarith)] at b2
    have z2 := abs_eq_zero.1 (le_antisymm b2 (abs_nonneg _))
    have z3 := abs_eq_zero.1 (le_antisymm b3 (abs_nonneg _))
    rw [z2, z3]; simp

/-! A mixture that meets the hypotheses: spheres of radius 1, one bond. -/

def sEx : Sphere := ⟨1, fun _ => 1, fun _ => 1, fun _ => 4 * Real.pi, fun _ => 4 * Real.pi / 3, fun _ => 1, fun _ => 1⟩
def mEx : Mix 1 := ⟨1, fun _ => 1, fun _ _ => sEx, fun _ => [(1 / 2, 1)]⟩
def mEx0 : Mix 1 := ⟨1, fun _ => 1, fun _ _ => sEx, fun _ => []⟩

theorem mEx_tot (w : Sphere → Nat → ℝ) (N : ℝ) : wtotU mEx w (single mEx N) = w sEx 0 * N := by
  unfold wtotU wsumU
  rw [Fin.sum_univ_one]
  exact Fin.sum_univ_one _

theorem mEx_fmt : FmtRegular (fmtU mEx (single mEx 0.1)) := by
  have p1 := Real.pi_gt_three
  have p2 := Real.pi_lt_four
  right
  simp only [fmtU, mEx_tot, sEx]
  refine ⟨by norm_num, by norm_num, by linarith, by linarith, by linarith, ?_, ?_⟩ <;> (intro h; linarith)

theorem mEx_bnd (c : Fin 1) : BndRegular (bndU mEx (single mEx 0.1) c) := by
  have p1 := Real.pi_gt_three
  have p2 := Real.pi_lt_four
  right
  have : wsumU mEx Sphere.w0 (single mEx 0.1) c = 0.1 := by
    have hc : c = 0 := Subsingleton.elim _ _
    subst hc
    unfold wsumU
    refine (Fin.sum_univ_one _).trans ?_
    show sEx.w0 0 * 0.1 = 0.1
    norm_num [sEx]
  simp only [bndU, mEx_tot, sEx, this, dot3]
  refine ⟨by norm_num, by linarith, by linarith, by linarith, ?_⟩
  have : 0 < 4 * Real.pi * 0.1 * (4 * Real.pi * 0.1) := by positivity
  norm_num at this ⊢

example : MixRegular gEx mEx fun _ _ => uni 0.1 := by
  have h : UniformD gEx mEx (fun _ _ => uni 0.1) (single mEx 0.1) := fun _ _ => uni_uniform _ _
  refine ⟨fun j _ => ?_, fun c b hb => ⟨?_, fun j _ => ?_⟩⟩
  · rw [fmtAt_uniform gEx mEx gEx_ok.1 h]; exact mEx_fmt
  · simp [mEx] at hb; rw [hb]; norm_num
  · rw [bndAt_uniform gEx mEx gEx_ok.1 h]; exact mEx_bnd c

example : URegular mEx (single mEx 0.1) := by
  refine ⟨by rw [mEx_tot]; norm_num [sEx], mEx_fmt, fun c b hb => ⟨?_, mEx_bnd c⟩⟩
  simp [mEx] at hb; rw [hb]; norm_num

example : hardSphere gEx mEx (fun _ _ => uni 0.1) = (hardSphereU mEx (single mEx 0.1)).map (gEx.detR * ·) :=
  C93_uniform gEx gEx_ok mEx _ _ (fun _ _ => uni_uniform _ _) (fun _ _ => by norm_num [single]) fun _ _ => (by norm_num [sEx] : 0 < sEx.w0 0)

example : hardSphereU mEx0 (single mEx0 0.1) = some (0.1 * carnahanStarling (4 * Real.pi * 1 ^ 3 / 3 * 0.1)) := by
  have p1 := Real.pi_gt_three
  have p2 := Real.pi_lt_four
  obtain ⟨E, h1, h2⟩ := C93_carnahan_starling mEx0 rfl 1 0.1 ⟨by simp [mEx0, sEx, fmtWeight0], rfl⟩ (by norm_num [mEx0]) (by norm_num) (by norm_num) (by norm_num; linarith)
  rw [if_neg (by norm_num; linarith)] at h2
  have := abs_eq_zero.1 (le_antisymm h2 (abs_nonneg _))
  rw [h1]
  have e : mEx0.T = 1 := rfl
  rw [e, one_mul] at this
  rw [sub_eq_zero.1 this]

/-! ### Equations of state -/

/-- **C93 (equations of state).** The derivative returned by either equation of state is that of the free energy it returns. Partial: not at density zero. -/
theorem C93_eos_partial (Vhs N : ℝ) (hV : Vhs * N < 1) :
    (∀ p : JA, p.b ≠ 0 → 0 < p.nc → p.dnHB ≠ 0 → N ≠ 0 → lambdaJA * p.b * N < 1 →
      HasDerivO (fun s => (eosJA p Vhs s).map Prod.fst) (((eosJA p Vhs N).map Prod.snd).getD 0) N) ∧
    ∀ p : TM, N ≠ 0 → p.lambda * p.b * N < 1 → HasDerivO (fun s => (eosTM p Vhs s).map Prod.fst) (((eosTM p Vhs N).map Prod.snd).getD 0) N := by
  refine ⟨fun p hb hc hd hN hG => ?_, fun p hN hG => ?_⟩
  · rcases lt_or_gt_of_ne hN with h | h
    · exact eos_neg_reg (fun M hM => by unfold eosJA; rw [if_pos hM]) h
    · exact eosJA_reg p Vhs hb hc hd h hG hV
  · rcases lt_or_gt_of_ne hN with h | h
    · exact eos_neg_reg (fun M hM => by unfold eosTM; rw [if_pos hM]) h
    · exact eosTM_reg p Vhs h hG hV

example : ∃ E, ((eosTM ⟨1, 1, 0.4, -1, 1, 1⟩ 1 0.5).map Prod.fst) = some E := by
  simp only [eosTM, avwTM, getAhs]
  rw [if_neg (by norm_num), if_neg (by norm_num), if_neg (by norm_num)]
  exact ⟨_, rfl⟩

/-- **C93 (gradient of the functional of an equation of state).** -/
theorem C93_eos_gradient (g : Grid) {n : Nat} (sites : Fin n → Site) (_hα : alphaTot sites ≠ 0) (w : Nat → ℝ) (e : ℝ → Option (ℝ × ℝ)) (N dN : Fin n → Arr)
    (hr : ∀ j < nr g.S, HasDerivO (fun s => (e s).map Prod.fst) (((e (eosNbar g sites w N j)).map Prod.snd).getD 0) (eosNbar g sites w N j)) :
    HasDerivO (fun t => eosE g sites w e fun s i => N s i + (t : ℂ) * dN s i) (g.dV * ∑ s, innerG g (eosGrad g sites w e N s) (dN s)) 0 :=
  eosE_deriv g sites w e N dN hr

theorem navg_uniform (g : Grid) {n : Nat} (sites : Fin n → Site) (hα : alphaTot sites ≠ 0) (N : Fin n → Arr) (ν : ℝ) (hN : ∀ s, Uniform g (N s) ((sites s).mult * ν)) :
    Uniform g (navgTilde sites N) ν := by
  have h := uniform_smul g (uniform_sum g Finset.univ (fun s i => ((sites s).alpha : ℂ) * N s i) (fun s => (sites s).alpha * ((sites s).mult * ν)) fun s _ => uniform_smul g (hN s) _) (1 / alphaTot sites)
  have e : 1 / alphaTot sites * ∑ s, (sites s).alpha * ((sites s).mult * ν) = ν := by
    have : ∑ s, (sites s).alpha * ((sites s).mult * ν) = alphaTot sites * ν := by
      unfold alphaTot; rw [Finset.sum_mul]; exact Finset.sum_congr rfl fun s _ => by ring
    rw [this]; field_simp
  rw [e] at h
  exact h

/-- **C93 (uniform fluid with an equation of state).** For molecules of uniform density `ν`, energy and derivative with respect to the density of molecules agree with what is computed for the uniform fluid. -/
theorem C93_eos_uniform (g : Grid) (hg : GridOK g) {n : Nat} (sites : Fin (n + 1) → Site) (hα : alphaTot sites ≠ 0) (h0 : (sites 0).mult ≠ 0) (w : Nat → ℝ) (hw : w 0 = 1)
    (e : ℝ → Option (ℝ × ℝ)) (ν : ℝ) (N : Fin (n + 1) → Arr) (hN : ∀ s, Uniform g (N s) ((sites s).mult * ν)) :
    eosE g sites w e N = ((eosU e (sites 0).mult ((sites 0).mult * ν)).map Prod.fst).map (g.detR * ·) ∧
    ∑ s, (sites s).mult * (eosGrad g sites w e N s 0) = ((nr g.S * ((sites 0).mult * ((eosU e (sites 0).mult ((sites 0).mult * ν)).map Prod.snd).getD 0) : ℝ) : ℂ) := by
  have u := navg_uniform g sites hα N ν hN
  have a1 : ∀ j, eosNavg g sites N j = ν := fun j => fftI_uniform g hg.1 u j
  have a2 : ∀ j, eosNbar g sites w N j = ν := fun j => by
    have := fftI_uniform g hg.1 (uniform_wMul g u w) j
    rw [hw, one_mul] at this; exact this
  have hm : ((sites 0).mult : ℝ) ≠ 0 := by exact_mod_cast h0
  have e1 : (sites 0).mult * ν * (1 / ((sites 0).mult : ℝ)) = ν := by field_simp
  constructor
  · unfold eosE
    simp only [a1, a2]
    rw [sumO_const _ (nr_pos _ hg.1)]
    simp only [eosU, e1, Option.map_map]
    congr 1; funext x; simp only [Function.comp_apply]; rw [← hg.2]; ring
  · unfold eosGrad
    simp only [a1, a2]
    have i1 : ∀ a : ℝ, Idag g.S (fun _ => a) 0 = ((nr g.S * a : ℝ) : ℂ) := fun a => Idag_const g.S hg.1 a
    simp only [wMul, i1, Int.toNat_zero, hw]
    cases he : e ν with
    | none => simp only [eosU, e1, he, Option.map_none, Option.getD_none]; simp
    | some p =>
      simp only [eosU, e1, he, Option.map_some, Option.getD_some]
      rw [← Complex.ofReal_inj.2 (show ∑ s, ((sites s).mult : ℝ) * ((nr g.S * (ν * p.2) * 1 + nr g.S * p.1) * ((sites s).alpha / alphaTot sites))
          = nr g.S * ((sites 0).mult * ((p.1 + ν * p.2) * (1 / ((sites 0).mult : ℝ)))) from ?_)]
      · push_cast; rfl
      · have : ∀ s, ((sites s).mult : ℝ) * ((nr g.S * (ν * p.2) * 1 + nr g.S * p.1) * ((sites s).alpha / alphaTot sites))
            = (nr g.S * (ν * p.2) * 1 + nr g.S * p.1) / alphaTot sites * ((sites s).alpha * (sites s).mult) := fun s => by ring
        rw [Finset.sum_congr rfl fun s _ => this s, ← Finset.mul_sum]
        show _ * alphaTot sites = _
        field_simp
        ring

/-- **C93 (attraction kernel).** The kernel of the equations of state is 1 at zero wave vector, as the theorem above requires. -/
theorem C93_kernel_norm (sigma : ℝ) (hs : 0 < sigma) : ljAtt0 (-9 / (32 * Real.sqrt 2 * Real.pi * sigma ^ 3)) sigma = 1 := by
  have h2 : ((2 : ℝ) ^ (1 / 6 : ℝ)) ^ 3 = Real.sqrt 2 := by
    rw [← Real.rpow_natCast, ← Real.rpow_mul (by norm_num), Real.sqrt_eq_rpow]; norm_num
  unfold ljAtt0
  simp only
  rw [mul_pow, h2]
  have := Real.pi_ne_zero
  have h3 : Real.sqrt 2 ≠ 0 := by positivity
  field_simp
  norm_num

example : ∃ N : Fin 2 → Arr, ∀ s, Uniform gEx (N s) ((![⟨1.5, 1⟩, ⟨0.5, 2⟩] : Fin 2 → Site) s).mult := ⟨fun _ => uni _, fun _ => uni_uniform _ _⟩

/-- **C93 (equation of state of the whole fluid).** For molecules with one hard sphere, hard spheres and excess functional add up to the equation of state itself:
the contribution of the hard spheres drops out. (Packing fraction at least 0.005; otherwise see `C93_carnahan_starling`.) -/
theorem C93_eos_total (m : Mix 1) (hs : m.ns 0 = 1) (R N : ℝ) (hm : IsSingle m hs R) (hT : 0 ≤ m.T) (hN : 0 < N) (hR : 0 < R) (h1 : 4 * Real.pi * R ^ 3 / 3 * N < 1)
    (h5 : 0.005 ≤ 4 * Real.pi * R ^ 3 / 3 * N) (p : JA) (hp : p.T = m.T) (q : TM) (hq : q.T = m.T) :
    addO [hardSphereU m (single m N), (eosU (eosJA p (4 * Real.pi / 3 * R ^ 3)) 1 N).map Prod.fst] = (avwJA p N).map (fun vw => N * ((ahb p N).1 + vw.1)) ∧
    addO [hardSphereU m (single m N), (eosU (eosTM q (4 * Real.pi / 3 * R ^ 3)) 1 N).map Prod.fst] = (avwTM q N).map (fun vw => N * (vw.1 + (avapTM q N).1)) := by
  obtain ⟨E, e1, e2⟩ := C93_carnahan_starling m hs R N hm hT hN hR h1
  rw [if_neg (not_lt.2 h5)] at e2
  have e3 : E = m.T * N * carnahanStarling (4 * Real.pi * R ^ 3 / 3 * N) := by
    have := abs_eq_zero.1 (le_antisymm e2 (abs_nonneg _)); linarith
  have eη : 4 * Real.pi / 3 * R ^ 3 * N = 4 * Real.pi * R ^ 3 / 3 * N := by ring
  have ea : ∀ T, ∃ d, getAhs T (4 * Real.pi / 3 * R ^ 3) N = some (T * carnahanStarling (4 * Real.pi * R ^ 3 / 3 * N), d) := by
    intro T
    unfold getAhs
    simp only [eη, ge_iff_le]
    rw [if_neg (not_le.2 h1)]
    refine Exists.intro _ (congrArg some (Prod.ext ?_ rfl))
    unfold carnahanStarling
    have : 1 - 4 * Real.pi * R ^ 3 / 3 * N ≠ 0 := by linarith
    generalize 4 * Real.pi * R ^ 3 / 3 * N = η at this
    field_simp
  have e4 : N * (1 / ((1 : Nat) : ℝ)) = N := by simp
  constructor
  · obtain ⟨d, hd⟩ := ea p.T
    simp only [eosU, e4, eosJA, if_neg (not_lt.2 hN.le), hd, e1, e3]
    cases avwJA p N with
    | none => rfl
    | some v =>
      simp [addO, hp]; ring
  · obtain ⟨d, hd⟩ := ea q.T
    simp only [eosU, e4, eosTM, if_neg (not_lt.2 hN.le), hd, e1, e3]
    cases avwTM q N with
    | none => rfl
    | some v =>
      simp [addO, hq]; ring

/-! ### Quadratic functionals -/

/-- **C93 (quadratic functionals).** Lennard-Jones attraction within a fluid and bonded voids: the gradient is the derivative of the energy, and both agree with those of the uniform fluid. -/
theorem C93_self_partial (g : Grid) (hg : GridOK g) (h2 : EvenGrid g) (c : ℝ) (w : Nat → ℝ) :
    (∀ N dN : Arr, HasDerivAt (fun t : ℝ => (selfE g c w fun i => N i + (t : ℂ) * dN i).1) (g.dV * innerG g (selfE g c w N).2 dN) 0) ∧
    (∀ (X : Arr) (N : ℝ), Uniform g X N → (selfE g c w X).1 = g.detR * (selfU c w N).1 ∧ (selfE g c w X).2 0 = ((nr g.S * (selfU c w N).2 : ℝ) : ℂ)) ∧
    ∀ N, HasDerivAt (fun N => (selfU c w N).1) (selfU c w N).2 N := by
  refine ⟨fun N dN => ?_, fun X N h => ⟨?_, ?_⟩, fun N => ?_⟩
  · refine bilin_deriv _ (0.5 * g.dV * innerG g (kerV g c w N) N) _ (0.5 * g.dV * innerG g (kerV g c w dN) dN) 0 (fun t => ?_) rfl
    simp only [selfE, dotHalf_innerG g h2 hg.1, kerV_moved, innerG_add_left, innerG_add_right, innerG_smul_left, innerG_smul_right, kerV_symm g c w dN N]
    ring
  · have u : Uniform g (kerV g c w X) (c * nr g.S * (w 0 * N)) := uniform_smul g (uniform_wMul g h w) _
    simp only [selfE, dotHalf_innerG g h2 hg.1, selfU]
    rw [uniform_dot g hg.1 u h, ← hg.2]; ring
  · have u : Uniform g (kerV g c w X) (c * nr g.S * (w 0 * N)) := uniform_smul g (uniform_wMul g h w) _
    simp only [selfE, selfU]
    rw [u.1]; push_cast; ring
  · have i := hasDerivAt_id N
    have := (((i.const_mul (0.5 * c)).mul_const (w 0)).mul i)
    refine this.congr_deriv ?_
    simp only [selfU, id_eq]; ring

/-- **C93 (mixing functionals).** -/
theorem C93_mix_partial (g : Grid) (hg : GridOK g) (h2 : EvenGrid g) (c : ℝ) (w : Nat → ℝ) :
    (∀ N1 N2 d1 d2 : Arr, HasDerivAt (fun t : ℝ => (mixE g c w (fun i => N1 i + (t : ℂ) * d1 i) fun i => N2 i + (t : ℂ) * d2 i).1)
      (g.dV * (innerG g (mixE g c w N1 N2).2.1 d1 + innerG g (mixE g c w N1 N2).2.2 d2)) 0) ∧
    (∀ (X1 X2 : Arr) (N1 N2 : ℝ), Uniform g X1 N1 → Uniform g X2 N2 → (mixE g c w X1 X2).1 = g.detR * (mixU c w N1 N2).1 ∧
      (mixE g c w X1 X2).2.1 0 = ((nr g.S * (mixU c w N1 N2).2.1 : ℝ) : ℂ) ∧ (mixE g c w X1 X2).2.2 0 = ((nr g.S * (mixU c w N1 N2).2.2 : ℝ) : ℂ)) ∧
    ∀ N1 N2 d1 d2 : ℝ, HasDerivAt (fun t => (mixU c w (N1 + t * d1) (N2 + t * d2)).1) ((mixU c w N1 N2).2.1 * d1 + (mixU c w N1 N2).2.2 * d2) 0 := by
  refine ⟨fun N1 N2 d1 d2 => ?_, fun X1 X2 N1 N2 h1 h2' => ⟨?_, ?_, ?_⟩, fun N1 N2 d1 d2 => ?_⟩
  · refine bilin_deriv _ (g.dV * innerG g (kerV g c w N1) N2) _ (g.dV * innerG g (kerV g c w d1) d2) 0 (fun t => ?_) rfl
    simp only [mixE, dotHalf_innerG g h2 hg.1, kerV_moved, innerG_add_left, innerG_add_right, innerG_smul_left, innerG_smul_right, kerV_symm g c w d1 N2]
    ring
  · have u : Uniform g (kerV g c w X1) (c * nr g.S * (w 0 * N1)) := uniform_smul g (uniform_wMul g h1 w) _
    simp only [mixE, dotHalf_innerG g h2 hg.1, mixU]
    rw [uniform_dot g hg.1 u h2', ← hg.2]; ring
  · have u : Uniform g (kerV g c w X2) (c * nr g.S * (w 0 * N2)) := uniform_smul g (uniform_wMul g h2' w) _
    simp only [mixE, mixU]
    rw [u.1]; push_cast; ring
  · have u : Uniform g (kerV g c w X1) (c * nr g.S * (w 0 * N1)) := uniform_smul g (uniform_wMul g h1 w) _
    simp only [mixE, mixU]
    rw [u.1]; push_cast; ring
  · refine bilin_deriv _ (N1 * c * w 0 * N2) _ (d1 * c * w 0 * d2) 0 (fun t => ?_) rfl
    simp only [mixU]; ring

example : ∃ g, GridOK g ∧ EvenGrid g ∧ 1 < nr g.S := ⟨gEx, gEx_ok, gEx_even, by decide⟩

/-! ### Fitted correlations of water -/

/-- **C93 (fitted correlations: gradient).** Partial: the last dimension of the grid is even or 1, and no weighted density is exactly zero. -/
theorem C93_fitted_gradient_partial (g : Grid) (hg : GridOK g) (h2 : EvenGrid g) (NO NH dO dH : Arr)
    (hr : ∀ j < nr g.S, gaussBar g NO j ≠ 0 ∧ gaussBar g NH j ≠ 0 ∧ gaussBar g NO j + gaussBar g NH j ≠ 0) :
    HasDerivAt (fun t : ℝ => fittedE g (fun i => NO i + (t : ℂ) * dO i) fun i => NH i + (t : ℂ) * dH i)
      (g.dV * (innerG g (fittedGradO g NO NH) dO + innerG g (fittedGradH g NO NH) dH)) 0 := by
  have bm : ∀ (N dN : Arr) (t : ℝ) (j : Nat), gaussBar g (fun i => N i + (t : ℂ) * dN i) j = gaussBar g N j + t * gaussBar g dN j := by
    intro N dN t j
    unfold gaussBar
    rw [← fftI_moved]; congr 1; funext i; simp only [wMul]; ring
  have hq : HasDerivAt (fun t : ℝ => 0.5 * g.dV * (dotHalf g.S (VO g (fun i => NO i + (t : ℂ) * dO i) fun i => NH i + (t : ℂ) * dH i) (fun i => NO i + (t : ℂ) * dO i)
      + dotHalf g.S (VH g (fun i => NO i + (t : ℂ) * dO i) fun i => NH i + (t : ℂ) * dH i) (fun i => NH i + (t : ℂ) * dH i)))
      (g.dV * (innerG g (VO g NO NH) dO + innerG g (VH g NO NH) dH)) 0 := by
    have vo : ∀ X Y, VO g X Y = fun i => kerV g 1 (fun i => gaussians COO (gLen g i)) X i + kerV g 1 (fun i => gaussians COH (gLen g i)) Y i := by
      intro X Y; funext i; simp only [VO, kerV]; push_cast; ring
    have vh : ∀ X Y, VH g X Y = fun i => kerV g 1 (fun i => gaussians COH (gLen g i)) X i + kerV g 1 (fun i => gaussians CHH (gLen g i)) Y i := by
      intro X Y; funext i; simp only [VH, kerV]; push_cast; ring
    refine bilin_deriv _ (0.5 * g.dV * (innerG g (VO g NO NH) NO + innerG g (VH g NO NH) NH)) _ (0.5 * g.dV * (innerG g (VO g dO dH) dO + innerG g (VH g dO dH) dH)) 0 (fun t => ?_) rfl
    simp only [vo, vh, dotHalf_innerG g h2 hg.1, kerV_moved, innerG_add_left, innerG_add_right, innerG_smul_left, innerG_smul_right,
      kerV_symm g _ _ dO NO, kerV_symm g _ _ dH NO, kerV_symm g _ _ dO NH, kerV_symm g _ _ dH NH, kerV_symm g _ _ NH NO, kerV_symm g _ _ dH dO]
    ring
  have hs : HasDerivAt (fun t : ℝ => g.dV * ∑ j ∈ Finset.range (nr g.S), (fitted (gaussBar g (fun i => NO i + (t : ℂ) * dO i) j) (gaussBar g (fun i => NH i + (t : ℂ) * dH i) j)).1)
      (g.dV * ∑ j ∈ Finset.range (nr g.S), ((fitted (gaussBar g NO j) (gaussBar g NH j)).2.1 * gaussBar g dO j + (fitted (gaussBar g NO j) (gaussBar g NH j)).2.2 * gaussBar g dH j)) 0 := by
    refine HasDerivAt.const_mul _ (HasDerivAt.fun_sum fun j hj => ?_)
    simp only [bm]
    obtain ⟨r1, r2, r3⟩ := hr j (Finset.mem_range.1 hj)
    have := fitted_deriv (lin (gaussBar g NO j) (gaussBar g dO j) 0) (lin (gaussBar g NH j) (gaussBar g dH j) 0) (by simpa using r1) (by simpa using r2) (by simpa using r3)
    simpa using this
  refine (hq.add hs).congr_deriv ?_
  rw [Finset.sum_add_distrib]
  have a : ∀ (u : Field) (d : Arr), ∑ j ∈ Finset.range (nr g.S), u j * gaussBar g d j = innerG g (wMul (fun i => fexGauss (gLen g i)) (Idag g.S u)) d := by
    intro u d
    rw [← innerG_wMul, ← adj]; rfl
  rw [a fun j => (fitted (gaussBar g NO j) (gaussBar g NH j)).2.1, a fun j => (fitted (gaussBar g NO j) (gaussBar g NH j)).2.2]
  have o : innerG g (fittedGradO g NO NH) dO = innerG g (VO g NO NH) dO + innerG g (wMul (fun i => fexGauss (gLen g i)) (Idag g.S fun j => (fitted (gaussBar g NO j) (gaussBar g NH j)).2.1)) dO := by
    rw [← innerG_add_left]; rfl
  have h : innerG g (fittedGradH g NO NH) dH = innerG g (VH g NO NH) dH + innerG g (wMul (fun i => fexGauss (gLen g i)) (Idag g.S fun j => (fitted (gaussBar g NO j) (gaussBar g NH j)).2.2)) dH := by
    rw [← innerG_add_left]; rfl
  rw [o, h]; ring

theorem gLen_zero (g : Grid) (hS : g.S.Pos) : gLen g 0 = 0 := by
  unfold gLen
  rw [hStart_zero _ hS]
  simp [gvec_zero, dot3]

theorem fexGauss_zero : fexGauss 0 = 1 := by simp [fexGauss]

theorem gauss_uniform (g : Grid) (hS : g.S.Pos) {X : Arr} {N : ℝ} (h : Uniform g X N) (j : Nat) : gaussBar g X j = N := by
  unfold gaussBar
  rw [fftI_uniform g hS (uniform_wMul g h _), gLen_zero g hS, fexGauss_zero, one_mul]

example : ∀ j < nr gEx.S, gaussBar gEx (uni 0.005) j ≠ 0 ∧ gaussBar gEx (uni 0.01) j ≠ 0 ∧ gaussBar gEx (uni 0.005) j + gaussBar gEx (uni 0.01) j ≠ 0 := by
  intro j _
  rw [gauss_uniform gEx gEx_ok.1 (uni_uniform _ _), gauss_uniform gEx gEx_ok.1 (uni_uniform _ _)]
  norm_num

/-- The correlations at zero wave vector do not cancel in water. -/
theorem corr_neg : gaussians COO 0 + 4 * gaussians COH 0 + 4 * gaussians CHH 0 < 0 := by
  simp only [gaussians, COO, COH, CHH, List.map_cons, List.map_nil, List.sum_cons, List.sum_nil]
  have pos : ∀ x : ℝ, 0 < Real.exp x := Real.exp_pos
  have up : ∀ x : ℝ, x ≤ -25 → Real.exp x ≤ Real.exp (-25) := fun x h => Real.exp_le_exp.2 h
  have lo : Real.exp (-21) ≤ Real.exp (-(0 - 1.63853) ^ 2 / 0.129513) := Real.exp_le_exp.2 (by norm_num)
  have big : 9 * Real.exp (-25) ≤ Real.exp (-21) := by
    have h1 : Real.exp (-21) = Real.exp 2 * Real.exp 2 * Real.exp (-25) := by rw [← Real.exp_add, ← Real.exp_add]; norm_num
    have h2 := Real.add_one_le_exp (2 : ℝ)
    rw [h1]
    have := pos (-25)
    have h3 : (9 : ℝ) ≤ Real.exp 2 * Real.exp 2 := by nlinarith
    exact mul_le_mul_of_nonneg_right h3 this.le
  have a1 := pos (-(0 - 1.0569) ^ 2 / 0.0204818)
  have a3 := up (-(0 - 1.87815) ^ 2 / 0.0736776) (by norm_num)
  have a4 := pos (-(0 - 2.46787) ^ 2 / 0.0563636)
  have a5 := up (-(0 - 3.10047) ^ 2 / 0.0844132) (by norm_num)
  have a6 := pos (-(0 - 3.7162) ^ 2 / 0.0452023)
  have b1 := pos (-(0 - 1.19859) ^ 2 / 0.028028)
  have b2 := up (-(0 - 1.72897) ^ 2 / 0.117534) (by norm_num)
  have b3 := pos (-(0 - 2.15839) ^ 2 / 0.213336)
  have b4 := up (-(0 - 2.72112) ^ 2 / 0.154157) (by norm_num)
  have b5 := pos (-(0 - 3.29894) ^ 2 / 0.0265282)
  have b6 := up (-(0 - 3.7659) ^ 2 / 0.0315518) (by norm_num)
  have c1 := pos (-(0 - 1.88697) ^ 2 / 0.104186)
  have c2 := up (-(0 - 2.53164) ^ 2 / 0.0869848) (by norm_num)
  have p := pos (-25)
  generalize Real.exp (-(0 - 1.0569) ^ 2 / 0.0204818) = x1 at *
  generalize Real.exp (-(0 - 1.63853) ^ 2 / 0.129513) = x2 at *
  generalize Real.exp (-(0 - 1.87815) ^ 2 / 0.0736776) = x3 at *
  generalize Real.exp (-(0 - 2.46787) ^ 2 / 0.0563636) = x4 at *
  generalize Real.exp (-(0 - 3.10047) ^ 2 / 0.0844132) = x5 at *
  generalize Real.exp (-(0 - 3.7162) ^ 2 / 0.0452023) = x6 at *
  generalize Real.exp (-(0 - 1.19859) ^ 2 / 0.028028) = y1 at *
  generalize Real.exp (-(0 - 1.72897) ^ 2 / 0.117534) = y2 at *
  generalize Real.exp (-(0 - 2.15839) ^ 2 / 0.213336) = y3 at *
  generalize Real.exp (-(0 - 2.72112) ^ 2 / 0.154157) = y4 at *
  generalize Real.exp (-(0 - 3.29894) ^ 2 / 0.0265282) = y5 at *
  generalize Real.exp (-(0 - 3.7659) ^ 2 / 0.0315518) = y6 at *
  generalize Real.exp (-(0 - 1.88697) ^ 2 / 0.104186) = z1 at *
  generalize Real.exp (-(0 - 2.53164) ^ 2 / 0.0869848) = z2 at *
  norm_num
  linarith

/-- **C93 (fitted correlations: uniform fluid, violation).** The energy density computed for uniform water omits the quadratic part, so it is not what the functional gives for a uniform density:
at every density the functional is lower. -/
theorem C93_fitted_uniform_fails (g : Grid) (hg : GridOK g) (h2 : EvenGrid g) (hV : 0 < g.detR) (ν : ℝ) (hν : 0 < ν) (NO NH : Arr) (hO : Uniform g NO ν) (hH : Uniform g NH (2 * ν)) (Phi : ℝ × ℝ) :
    fittedE g NO NH < g.detR * (fittedU ν (2 * ν) Phi).1 := by
  have uo : Uniform g (VO g NO NH) (nr g.S * (gaussians COO 0 * ν + gaussians COH 0 * (2 * ν))) := by
    have a := uniform_wMul g hO fun i => gaussians COO (gLen g i)
    have b := uniform_wMul g hH fun i => gaussians COH (gLen g i)
    rw [gLen_zero g hg.1] at a b
    refine ⟨?_, fun i h0 hi => ?_⟩
    · unfold VO; rw [a.1, b.1]; push_cast; ring
    · unfold VO; rw [a.2 i h0 hi, b.2 i h0 hi]; simp
  have uh : Uniform g (VH g NO NH) (nr g.S * (gaussians COH 0 * ν + gaussians CHH 0 * (2 * ν))) := by
    have a := uniform_wMul g hO fun i => gaussians COH (gLen g i)
    have b := uniform_wMul g hH fun i => gaussians CHH (gLen g i)
    rw [gLen_zero g hg.1] at a b
    refine ⟨?_, fun i h0 hi => ?_⟩
    · unfold VH; rw [a.1, b.1]; push_cast; ring
    · unfold VH; rw [a.2 i h0 hi, b.2 i h0 hi]; simp
  unfold fittedE fittedU
  simp only [dotHalf_innerG g h2 hg.1, uniform_dot g hg.1 uo hO, uniform_dot g hg.1 uh hH, gauss_uniform g hg.1 hO, gauss_uniform g hg.1 hH, Finset.sum_const, Finset.card_range, nsmul_eq_mul]
  have e : 0.5 * g.dV * (nr g.S * (gaussians COO 0 * ν + gaussians COH 0 * (2 * ν)) * ν + nr g.S * (gaussians COH 0 * ν + gaussians CHH 0 * (2 * ν)) * (2 * ν)) + g.dV * (nr g.S * (fitted ν (2 * ν)).1)
      = g.detR * (fitted ν (2 * ν)).1 + 0.5 * g.detR * ν ^ 2 * (gaussians COO 0 + 4 * gaussians COH 0 + 4 * gaussians CHH 0) := by
    rw [← hg.2]; ring
  rw [e]
  have := mul_neg_of_pos_of_neg (by positivity : 0 < 0.5 * g.detR * ν ^ 2) corr_neg
  linarith

/-- **C93 (fitted correlations: accumulation, violation).** The derivatives for the uniform fluid replace what is in the array instead of being added to it. -/
theorem C93_fitted_accumulate_fails (NO NH : ℝ) (Phi : ℝ × ℝ) (h : Phi ≠ 0) : (fittedU NO NH Phi).2 ≠ Phi + (fitted NO NH).2 := by
  unfold fittedU
  intro e
  exact h (by simpa using e)

example : fittedE gEx (uni 0.005) (uni (2 * 0.005)) < 8 * (fittedU 0.005 (2 * 0.005) 0).1 :=
  C93_fitted_uniform_fails gEx gEx_ok gEx_even (by norm_num [gEx]) 0.005 (by norm_num) _ _ (uni_uniform _ _) (uni_uniform _ _) 0

end
end Jdftx.Fluid
