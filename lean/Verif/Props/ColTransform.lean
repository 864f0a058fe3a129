import Verif.Lemmas.ColTransform
import Verif.Props.Fillings
import Mathlib.Tactic.LinearCombination

/-!
# Symmetry transforms of wavefunctions (C59)
-/
noncomputable section
namespace Jdftx.ColT
open M3

/-- The bases and k-points of a transform fit together: plane waves listed once, the images of the C plane waves among those of D, and k-points
equivalent under the operation exactly (not merely within the threshold). -/
structure Fits (p : Inp) : Prop where
  nodupC : p.GC.Nodup
  nodupD : p.GD.Nodup
  nonempty : p.GC ≠ []
  image : ∀ g ∈ p.GC, image p g ∈ p.GD
  kpoint : ∀ i, ∃ n : Int, mulVM p.kC (castMat (affine p)) i = p.kD i + n
  sign : p.invert = 1 ∨ p.invert = -1
  spin : p.nSpinor = 1 ∨ p.nSpinor = 2
  threshold : 0 < p.symmThreshold
  rot : det p.rot ≠ 0
  super : det p.super ≠ 0

theorem offset_exact (p : Inp) (h : Fits p) (i : Fin 3) : (offset p i : ℝ) = mulVM p.kC (castMat (affine p)) i - p.kD i := by
  obtain ⟨n, hn⟩ := h.kpoint i
  unfold offset kShift
  rw [hn]
  have : p.kD i + (n : ℝ) - p.kD i = n := by ring
  rw [this, round_intCast]

theorem det_affine (p : Inp) (h : Fits p) : (Matrix.of (affine p)).det ≠ 0 := by
  unfold affine
  rw [mulMM_eq, Matrix.det_mul, smul_eq, Matrix.det_smul, ← det_eq, ← det_eq]
  have := h.rot
  have := h.super
  rcases h.sign with hs | hs <;> rw [hs] <;> simp [h.rot, h.super]

theorem image_inj (p : Inp) (h : Fits p) (g g' : V3 Int) (he : image p g = image p g') : g = g' := by
  have h1 : Matrix.vecMul g (Matrix.of (affine p)) = Matrix.vecMul g' (Matrix.of (affine p)) := by
    rw [← mulVM_eq, ← mulVM_eq]
    funext i
    have := congrFun he i
    simp only [image] at this
    omega
  have h2 := congrArg (fun v => Matrix.vecMul v (Matrix.of (affine p)).adjugate) h1
  simp only [Matrix.vecMul_vecMul, Matrix.mul_adjugate] at h2
  funext i
  have h3 := congrFun h2 i
  rw [Matrix.vecMul_smul, Matrix.vecMul_smul, Matrix.vecMul_one, Matrix.vecMul_one] at h3
  simp only [Pi.smul_apply, smul_eq_mul] at h3
  exact mul_left_cancel₀ (det_affine p h) h3

theorem mapM_all {α β : Type} (f : α → Res β) (g : α → β) (l : List α) (h : ∀ a ∈ l, f a = .ok (g a)) : l.mapM f = .ok (l.map g) := by
  induction l with
  | nil => rfl
  | cons a l ih =>
    rw [List.mapM_cons, h a (by simp), Res.bind_ok, ih fun b hb => h b (by simp [hb]), Res.bind_ok]
    rfl

/-- Position of a vector in a list. -/
def pos (G : List (V3 Int)) (g : V3 Int) : Nat := G.findIdx fun x => decide (x = g)

theorem pos_spec (G : List (V3 Int)) (g : V3 Int) (h : g ∈ G) : G[pos G g]? = some g := by
  have hlt : pos G g < G.length := List.findIdx_lt_length_of_exists ⟨g, h, by simp⟩
  rw [List.getElem?_eq_getElem hlt]
  have := List.findIdx_getElem (w := hlt)
  exact congrArg some (of_decide_eq_true this)

/-- Spinor matrices used by the transform are unitary. -/
theorem spinor_unitary (p : Inp) (R : Nat → Nat → ℂ) (h : spinor p = .ok R) (s s' : Nat) (hs : s < p.nSpinor) (hs' : s' < p.nSpinor) :
    ∑ r ∈ Finset.range p.nSpinor, star (R r s) * R r s' = if s = s' then 1 else 0 := by
  unfold spinor at h
  split at h
  · rename_i h1
    have h := Except.ok.inj h
    subst h
    rw [h1] at hs hs' ⊢
    have e : s = 0 := by omega
    have e' : s' = 0 := by omega
    subst e; subst e'
    simp
  · rename_i h2
    have h := Except.ok.inj h
    subst h
    rw [h2] at hs hs' ⊢
    have hu : (Euler.spinorRot p.rotCart p.invert).conjTranspose * Euler.spinorRot p.rotCart p.invert = 1 := by
      have hU := (Euler.spinorFromEuler_unitary (Euler.eulerFromMatrix (smul (1 / det (transpose p.rotCart)) (transpose p.rotCart)))).2.1
      unfold Euler.spinorRot
      simp only
      split
      · have hS : (!![0, 1; -1, 0] : Euler.M2).conjTranspose * !![0, 1; -1, 0] = 1 := by
          ext i j
          fin_cases i <;> fin_cases j <;> simp [Matrix.mul_apply, Fin.sum_univ_two]
        have hW : ((!![0, 1; -1, 0] : Euler.M2) * Euler.getSpinorRotation (transpose p.rotCart)).conjTranspose * (!![0, 1; -1, 0] * Euler.getSpinorRotation (transpose p.rotCart)) = 1 := by
          rw [Matrix.conjTranspose_mul, Matrix.mul_assoc, ← Matrix.mul_assoc _ _ (Euler.getSpinorRotation _), hS, Matrix.one_mul]
          exact hU
        generalize (!![0, 1; -1, 0] : Euler.M2) * Euler.getSpinorRotation (transpose p.rotCart) = W at hW ⊢
        ext i j
        have := congrArg star (congrFun (congrFun hW i) j)
        simp only [Matrix.mul_apply, Fin.sum_univ_two, Matrix.conjTranspose_apply, Matrix.map_apply, star_add, star_mul', star_star] at this ⊢
        rw [this, Matrix.one_apply]
        split <;> simp
      · exact hU
    have e := fun i j => congrFun (congrFun hu i) j
    simp only [Matrix.mul_apply, Fin.sum_univ_two, Matrix.conjTranspose_apply] at e
    rw [Finset.sum_range_succ, Finset.sum_range_one]
    have hs2 : s = 0 ∨ s = 1 := by omega
    have hs2' : s' = 0 ∨ s' = 1 := by omega
    rcases hs2 with rfl | rfl <;> rcases hs2' with rfl | rfl
    · exact e 0 0
    · exact e 0 1
    · exact e 1 0
    · exact e 1 1
  · exact absurd h (by simp)

/-- A fitting transform can be constructed, and sends each plane wave to the position of its image. -/
theorem construct_spec (p : Inp) (h : Fits p) : ∃ R, spinor p = .ok R ∧ construct p = .ok {
    nbC := p.GC.length, nbD := p.GD.length, nSpinor := p.nSpinor, invert := p.invert, index := p.GC.map fun g => (pos p.GD (image p g) : Int), phase := phases p, spinorRot := R } := by
  obtain ⟨R, hR⟩ : ∃ R, spinor p = .ok R := by
    unfold spinor
    rcases h.spin with e | e <;> rw [e] <;> exact ⟨_, rfl⟩
  refine ⟨R, hR, ?_⟩
  have herr : offsetErr p = 0 := by
    unfold offsetErr
    have : ∀ i, kShift p i - offset p i = 0 := fun i => by
      rw [offset_exact p h]; unfold kShift; ring
    simp [dot, this]
  have hidx : p.GC.mapM (fun g => lookup p.GD (image p g)) = .ok (p.GC.map fun g => (pos p.GD (image p g) : Int)) :=
    mapM_all _ _ _ fun g hg => lookup_mem p.GD h.nodupD _ _ (pos_spec p.GD _ (h.image g hg))
  unfold construct
  rw [if_neg (not_not.2 h.sign), if_neg (by rw [herr]; exact not_not.2 h.threshold), hidx, hR]
  simp only [Res.bind_ok]
  rw [if_neg (by simpa using h.nonempty), if_neg (by simp)]
  rfl

/-- For fitting bases the construction succeeds; plane wave number `i` is sent to the place of its image `G·rot·invert·super + offset` in the other
basis. -/
theorem C59_index (p : Inp) (h : Fits p) : ∃ t, construct p = .ok t ∧ t.index.length = p.GC.length ∧
    ∀ (i : Nat) g, p.GC[i]? = some g → ∃ n : Nat, t.index[i]? = some (n : Int) ∧
      p.GD[n]? = some (fun d => mulVM g (mulMM (smul p.invert p.rot) p.super) d + round (mulVM p.kC (castMat (mulMM (smul p.invert p.rot) p.super)) d - p.kD d)) := by
  obtain ⟨R, _, hc⟩ := construct_spec p h
  refine ⟨_, hc, by simp, fun i g hg => ⟨pos p.GD (image p g), by simp [hg], ?_⟩⟩
  exact pos_spec p.GD _ (h.image g (List.mem_of_getElem? hg))

theorem mapM_length {α β : Type} (f : α → Res β) : ∀ (l : List α) (r : List β), l.mapM f = .ok r → r.length = l.length
  | [], r, h => by simp only [List.mapM_nil] at h; cases h; rfl
  | a :: l, r, h => by
    rw [List.mapM_cons] at h
    cases ha : f a with
    | error e => rw [ha] at h; cases h
    | ok b =>
      rw [ha] at h
      simp only [Res.bind_ok] at h
      cases hl : l.mapM f with
      | error e => rw [hl] at h; cases h
      | ok bs =>
        rw [hl] at h
        simp only [Res.bind_ok] at h
        cases h
        simp [mapM_length f l bs hl]

/-- A transform is made only when the sign is 1 or -1 and the source k-point, taken through the operation and the supercell, is within the symmetry
threshold of the target k-point and a reciprocal lattice vector; every source vector is then mapped. -/
theorem C59_checked (p : Inp) (t : Tr) (ht : construct p = .ok t) :
    (p.invert = 1 ∨ p.invert = -1) ∧ p.GC ≠ [] ∧ t.index.length = p.GC.length ∧ (∀ n ∈ t.index, 0 ≤ n) ∧
    ∃ z : Fin 3 → Int, ∑ i, (∑ a, ∑ b, p.kC a * ((p.invert * p.rot a b * p.super b i : Int) : ℝ) - p.kD i - z i) ^ 2 < p.symmThreshold ^ 2 ∧
      0 < p.symmThreshold := by
  unfold construct at ht
  by_cases h1 : p.invert = 1 ∨ p.invert = -1
  swap
  · rw [if_pos h1] at ht; cases ht
  rw [if_neg (not_not.2 h1)] at ht
  by_cases h2 : offsetErr p < p.symmThreshold
  swap
  · rw [if_pos h2] at ht; cases ht
  rw [if_neg (not_not.2 h2)] at ht
  cases hidx : p.GC.mapM (fun g => lookup p.GD (image p g)) with
  | error e => rw [hidx] at ht; cases ht
  | ok idx =>
    rw [hidx] at ht
    simp only [Res.bind_ok] at ht
    by_cases h3 : idx = []
    · rw [if_pos h3] at ht; cases ht
    rw [if_neg h3] at ht
    by_cases h4 : idx.any (fun n => decide (n < 0)) = true
    · rw [if_pos h4] at ht; cases ht
    rw [if_neg h4] at ht
    cases hR : spinor p with
    | error e => rw [hR] at ht; cases ht
    | ok R =>
      rw [hR] at ht
      cases ht
      have hlen := mapM_length _ _ _ hidx
      refine ⟨h1, ?_, hlen, ?_, offset p, ?_⟩
      · rintro h; rw [h] at hlen; exact h3 (List.length_eq_zero_iff.1 hlen)
      · intro n hn
        by_contra hneg
        exact h4 (List.any_eq_true.2 ⟨n, hn, by simpa using hneg⟩)
      · have hpos : 0 < p.symmThreshold := lt_of_le_of_lt (Real.sqrt_nonneg _) h2
        refine ⟨?_, hpos⟩
        unfold offsetErr at h2
        rw [Real.sqrt_lt' hpos] at h2
        refine lt_of_eq_of_lt ?_ h2
        simp only [dot, kShift, affine, mulVM, mulMM, smul, castMat, Fin.sum_univ_three]
        push_cast
        ring

theorem good (p : Inp) (h : Fits p) (t : Tr) (ht : construct p = .ok t) : Good t ∧ t.nbC = p.GC.length ∧ t.nbD = p.GD.length ∧ t.nSpinor = p.nSpinor ∧ t.invert = p.invert ∧
    t.phase = phases p ∧ spinor p = .ok t.spinorRot ∧ ∀ (i : Nat) g, p.GC[i]? = some g → p.GD[idx t i]? = some (image p g) := by
  obtain ⟨R, hR, hc⟩ := construct_spec p h
  rw [hc] at ht
  have ht := Except.ok.inj ht
  subst ht
  have hidx : ∀ (i : Nat) g, p.GC[i]? = some g → p.GD[((p.GC.map fun g => (pos p.GD (image p g) : Int)).getD i 0).toNat]? = some (image p g) := by
    intro i g hg
    have : (p.GC.map fun g => (pos p.GD (image p g) : Int)).getD i 0 = (pos p.GD (image p g) : Int) := by
      rw [List.getD_eq_getElem?_getD, List.getElem?_map, hg]; rfl
    rw [this]
    exact pos_spec p.GD _ (h.image g (List.mem_of_getElem? hg))
  refine ⟨⟨by simp, ?_, ?_⟩, rfl, rfl, rfl, rfl, rfl, hR, hidx⟩
  · intro i hi
    have := hidx i _ (List.getElem?_eq_getElem hi)
    exact (List.getElem?_eq_some_iff.1 this).1
  · intro i hi j hj he
    have h1 := hidx i _ (List.getElem?_eq_getElem hi)
    have h2 := hidx j _ (List.getElem?_eq_getElem hj)
    simp only [idx] at he
    rw [he, h2] at h1
    have := image_inj p h _ _ (Option.some.inj h1)
    exact (h.nodupC.getElem_inj_iff).1 this.symm

/-- Phases have unit modulus. -/
theorem phase_unit (p : Inp) (t : Tr) (ht : t.phase = phases p) (i : Nat) (hi : i < p.GC.length) (w : ℂ) (hw : phaseAt t i = some w) : w * star w = 1 ∧
    w = Euler.cis (2 * Real.pi * dot (fun d => (p.GC.getD i 0 d : ℝ) + p.kC d) p.a) := by
  unfold phaseAt at hw
  rw [ht] at hw
  unfold phases at hw
  split at hw
  · simp only [Option.map_some, Option.some.injEq] at hw
    have e : w = Euler.cis (2 * Real.pi * dot (fun d => (p.GC.getD i 0 d : ℝ) + p.kC d) p.a) := by
      rw [← hw, List.getD_eq_getElem?_getD, List.getElem?_map, List.getD_eq_getElem?_getD, List.getElem?_eq_getElem hi]; rfl
    refine ⟨?_, e⟩
    rw [e]
    have h1 := Real.sin_sq_add_cos_sq (2 * Real.pi * dot (fun d => (p.GC.getD i 0 d : ℝ) + p.kC d) p.a)
    unfold Euler.cis
    generalize Real.cos (2 * Real.pi * dot (fun d => (p.GC.getD i 0 d : ℝ) + p.kC d) p.a) = c at *
    generalize Real.sin (2 * Real.pi * dot (fun d => (p.GC.getD i 0 d : ℝ) + p.kC d) p.a) = s at *
    apply Complex.ext <;> simp
    · linear_combination h1
    · ring
  · simp at hw

/-- Gathering with the transform what was scattered with it gives the original columns back, times the two factors (the first conjugated when the
transform is antiunitary), and added to what was there. Scattering to columns `st, st+dt, ...` of an empty bundle. -/
theorem C59_roundtrip (p : Inp) (h : Fits p) (t : Tr) (ht : construct p = .ok t) (alpha beta : ℂ) (C D Z Z' : Mem) (nC nD st dt : Nat) (hdt : 0 < dt)
    (hsc : scatter t alpha C nC (fun _ => 0) nD st dt = .ok D) (hga : gather t beta D nD st dt Z nC = .ok Z')
    (b s i : Nat) (hb : b < nC) (hs : s < p.nSpinor) (hi : i < p.GC.length) :
    comp Z' p.nSpinor p.GC.length b s i = comp Z p.nSpinor p.GC.length b s i + beta * (if p.invert < 0 then star alpha else alpha) * comp C p.nSpinor p.GC.length b s i := by
  obtain ⟨hg, hnC, hnD, hn, hinv, hph, hR, _⟩ := good p h t ht
  have hu := spinor_unitary p t.spinorRot hR
  have hD : ∀ sD < t.nSpinor, comp D t.nSpinor t.nbD (st + dt * b) sD (idx t i) = ∑ sC ∈ Finset.range t.nSpinor, sv t alpha C b sD sC i := by
    intro sD hsD
    rw [scatter_val t hg alpha C _ D nC nD st dt hsc _ sD _ hsD (hg.lt i (by rw [hnC]; exact hi))]
    have z : comp (fun _ => 0) t.nSpinor t.nbD (st + dt * b) sD (idx t i) = 0 := rfl
    rw [z, zero_add, Finset.sum_eq_single b]
    · rw [if_pos rfl]
      apply Finset.sum_congr rfl; intro sC _
      rw [Finset.sum_eq_single i]
      · rw [if_pos rfl]
      · intro i' hi' hne
        rw [if_neg]
        intro he
        exact hne (hg.inj i' (Finset.mem_range.1 hi') i (by rw [hnC]; exact hi) he)
      · intro hn; exact absurd (Finset.mem_range.2 (by rw [hnC]; exact hi)) hn
    · intro b' _ hne
      rw [if_neg]
      intro he
      have : dt * b = dt * b' := by omega
      exact hne (Nat.eq_of_mul_eq_mul_left hdt this).symm
    · intro hn; exact absurd (Finset.mem_range.2 hb) hn
  have hmain := gather_val t hg beta D Z Z' nC nD st dt hga b s i (by rw [hn]; exact hs) (by rw [hnC]; exact hi) hb
  rw [hn, hnC] at hmain
  rw [hmain]
  congr 1
  -- each phase cancels
  have hcancel : ∀ c : ℂ, (conjugator (decide (t.invert < 0)) true (conjugator (decide (t.invert < 0)) (decide (t.invert < 0)) c (phaseAt t i)) (phaseAt t i)) = c := by
    intro c
    cases hw : phaseAt t i with
    | none => unfold conjugator; by_cases hneg : t.invert < 0 <;> simp [hneg]
    | some w =>
      have hw1 := (phase_unit p t hph i hi w hw).1
      unfold conjugator
      by_cases hneg : t.invert < 0
      · simp only [hneg, decide_true, if_true]
        rw [star_mul', star_star, star_star, mul_assoc, hw1, mul_one]
      · simp only [hneg, decide_false, if_true]
        simp only [Bool.false_eq_true, if_false]
        rw [mul_assoc, hw1, mul_one]
  have hlin : ∀ (x : ℂ) (y : Nat → ℂ), conjugator (decide (t.invert < 0)) true (∑ sC ∈ Finset.range p.nSpinor, x * y sC) (phaseAt t i) =
      (if t.invert < 0 then star x else x) * ∑ sC ∈ Finset.range p.nSpinor, conjugator (decide (t.invert < 0)) true (y sC) (phaseAt t i) := by
    intro x y
    rw [← Finset.mul_sum]
    unfold conjugator
    cases phaseAt t i with
    | none => by_cases hneg : t.invert < 0 <;> simp [hneg]
    | some w =>
      by_cases hneg : t.invert < 0
      · simp only [hneg, decide_true, if_true, star_mul', star_sum, ← Finset.sum_mul]; ring
      · simp only [hneg, decide_false, if_false, Bool.false_eq_true, if_true, ← Finset.sum_mul]; ring
  have hgv : ∀ sD ∈ Finset.range p.nSpinor, gv t beta D (st + dt * b) sD s i = ∑ sC ∈ Finset.range p.nSpinor,
      beta * (if t.invert < 0 then star alpha else alpha) * ((if t.invert < 0 then t.spinorRot sD s * star (t.spinorRot sD sC) else star (t.spinorRot sD s) * t.spinorRot sD sC) * comp C p.nSpinor p.GC.length b sC i) := by
    intro sD hsD
    unfold gv
    rw [hD sD (by rw [hn]; exact Finset.mem_range.1 hsD), hn]
    have : ∀ sC, sv t alpha C b sD sC i = alpha * (t.spinorRot sD sC * conjugator (decide (t.invert < 0)) (decide (t.invert < 0)) (comp C p.nSpinor p.GC.length b sC i) (phaseAt t i)) := by
      intro sC; unfold sv; rw [hn, hnC]; ring
    simp only [this]
    rw [hlin, Finset.mul_sum, Finset.mul_sum]
    apply Finset.sum_congr rfl; intro sC _
    have hc2 : conjugator (decide (t.invert < 0)) true (t.spinorRot sD sC * conjugator (decide (t.invert < 0)) (decide (t.invert < 0)) (comp C p.nSpinor p.GC.length b sC i) (phaseAt t i)) (phaseAt t i)
        = (if t.invert < 0 then star (t.spinorRot sD sC) else t.spinorRot sD sC) * comp C p.nSpinor p.GC.length b sC i := by
      have h2 := hcancel (comp C p.nSpinor p.GC.length b sC i)
      generalize conjugator (decide (t.invert < 0)) (decide (t.invert < 0)) (comp C p.nSpinor p.GC.length b sC i) (phaseAt t i) = q at h2 ⊢
      rw [← h2]
      unfold conjugator
      cases phaseAt t i with
      | none => by_cases hneg : t.invert < 0 <;> simp [hneg]
      | some w => by_cases hneg : t.invert < 0 <;> simp [hneg] <;> ring
    rw [hc2]
    by_cases hneg : t.invert < 0 <;> simp only [hneg, if_true, if_false] <;> ring
  rw [Finset.sum_congr rfl hgv, Finset.sum_comm, ← hinv]
  simp only [← Finset.mul_sum, ← Finset.sum_mul]
  rw [mul_assoc beta]
  have hpick : ∑ sC ∈ Finset.range p.nSpinor, (∑ sD ∈ Finset.range p.nSpinor, if t.invert < 0 then t.spinorRot sD s * star (t.spinorRot sD sC) else star (t.spinorRot sD s) * t.spinorRot sD sC) * comp C p.nSpinor p.GC.length b sC i
      = comp C p.nSpinor p.GC.length b s i := by
    have hin : ∀ sC ∈ Finset.range p.nSpinor, (∑ sD ∈ Finset.range p.nSpinor, if t.invert < 0 then t.spinorRot sD s * star (t.spinorRot sD sC) else star (t.spinorRot sD s) * t.spinorRot sD sC) * comp C p.nSpinor p.GC.length b sC i
        = (if sC = s then 1 else 0) * comp C p.nSpinor p.GC.length b sC i := by
      intro sC hsC
      congr 1
      by_cases hneg : t.invert < 0
      · simp only [hneg, if_true]
        rw [← hu sC s (Finset.mem_range.1 hsC) hs]
        apply Finset.sum_congr rfl; intro _ _; ring
      · simp only [hneg, if_false]
        rw [hu s sC hs (Finset.mem_range.1 hsC)]
        by_cases he : s = sC
        · simp [he]
        · simp [he, Ne.symm he]
    rw [Finset.sum_congr rfl hin]
    simp only [ite_mul, one_mul, zero_mul, Finset.sum_ite_eq', Finset.mem_range, hs, if_true]
  rw [hpick]
  ring

/-- The phase factor as a power of `e`. -/
theorem cis_exp (x : ℝ) : Euler.cis x = Complex.exp ((x : ℝ) * Complex.I) := by
  rw [Complex.exp_mul_I]
  apply Complex.ext <;> simp [Euler.cis, Complex.cos_ofReal_re, Complex.sin_ofReal_re, Complex.cos_ofReal_im, Complex.sin_ofReal_im]

theorem star_exp (x : ℝ) : star (Complex.exp ((x : ℝ) * Complex.I)) = Complex.exp (((-x : ℝ) : ℝ) * Complex.I) := by
  have : star (Complex.exp ((x : ℝ) * Complex.I)) = (starRingEnd ℂ) (Complex.exp ((x : ℝ) * Complex.I)) := rfl
  rw [this, ← Complex.exp_conj]
  congr 1
  simp

/-- Scattering computes the transformed wavefunction: each spin component of the destination column gains, at every point `x`, the spinor matrix
times the source wavefunction at `rot·super·x + a`, conjugated when the transform includes time reversal; other columns are not changed. -/
theorem C59_wavefunction (p : Inp) (h : Fits p) (t : Tr) (ht : construct p = .ok t) (alpha : ℂ) (C Y D : Mem) (nC nD st dt : Nat) (hdt : 0 < dt)
    (hsc : scatter t alpha C nC Y nD st dt = .ok D) (s : Nat) (hs : s < p.nSpinor) :
    (∀ b < nC, ∀ x : V3 ℝ, bloch p.kD p.GD (comp D p.nSpinor p.GD.length (st + dt * b) s) x = bloch p.kD p.GD (comp Y p.nSpinor p.GD.length (st + dt * b) s) x +
      alpha * ∑ sC ∈ Finset.range p.nSpinor, t.spinorRot s sC *
        (let v := bloch p.kC p.GC (comp C p.nSpinor p.GC.length b sC) fun d => mulMV (castMat p.rot) (mulMV (castMat p.super) x) d + p.a d
         if p.invert < 0 then star v else v)) ∧
    ∀ b', (∀ b < nC, b' ≠ st + dt * b) → ∀ j < p.GD.length, comp D p.nSpinor p.GD.length b' s j = comp Y p.nSpinor p.GD.length b' s j := by
  obtain ⟨hg, hnC, hnD, hn, hinv, hph, hR, hidx⟩ := good p h t ht
  have hval := fun b' j hj => scatter_val t hg alpha C Y D nC nD st dt hsc b' s j (by rw [hn]; exact hs) hj
  rw [hn, hnD] at hval
  constructor
  · intro b hb x
    have hcol : ∀ j < p.GD.length, comp D p.nSpinor p.GD.length (st + dt * b) s j = comp Y p.nSpinor p.GD.length (st + dt * b) s j +
        ∑ i ∈ Finset.range p.GC.length, if idx t i = j then ∑ sC ∈ Finset.range p.nSpinor, sv t alpha C b s sC i else 0 := by
      intro j hj
      rw [hval _ j hj, Finset.sum_eq_single b]
      · rw [if_pos rfl, Finset.sum_comm, hnC]
        congr 1
        apply Finset.sum_congr rfl; intro i _
        split <;> simp
      · intro b' _ hne
        rw [if_neg]
        intro he
        have : dt * b = dt * b' := by omega
        exact hne (Nat.eq_of_mul_eq_mul_left hdt this).symm
      · intro hn; exact absurd (Finset.mem_range.2 hb) hn
    unfold bloch
    rw [Finset.sum_congr rfl fun j hj => by rw [hcol j (Finset.mem_range.1 hj), add_mul], Finset.sum_add_distrib]
    congr 1
    simp only [Finset.sum_mul]
    rw [Finset.sum_comm]
    -- collapse the sum over the D basis
    have hcoll : ∀ i ∈ Finset.range p.GC.length, (∑ j ∈ Finset.range p.GD.length, (if idx t i = j then ∑ sC ∈ Finset.range p.nSpinor, sv t alpha C b s sC i else 0) *
          Complex.exp ((2 * Real.pi * ∑ d, ((p.GD.getD j 0 d : ℝ) + p.kD d) * x d : ℝ) * Complex.I)) =
        ∑ sC ∈ Finset.range p.nSpinor, sv t alpha C b s sC i * Complex.exp ((2 * Real.pi * ∑ d, ((p.GD.getD (idx t i) 0 d : ℝ) + p.kD d) * x d : ℝ) * Complex.I) := by
      intro i hi
      rw [Finset.sum_eq_single (idx t i)]
      · rw [if_pos rfl, Finset.sum_mul]
      · intro j _ hne; rw [if_neg (Ne.symm hne), zero_mul]
      · intro hn
        exact absurd (Finset.mem_range.2 (by rw [← hnD]; exact hg.lt i (by rw [hnC]; exact Finset.mem_range.1 hi))) hn
    rw [Finset.sum_congr rfl hcoll, Finset.sum_comm, Finset.mul_sum]
    apply Finset.sum_congr rfl; intro sC _
    -- one spin component
    have hterm : ∀ i ∈ Finset.range p.GC.length, sv t alpha C b s sC i * Complex.exp ((2 * Real.pi * ∑ d, ((p.GD.getD (idx t i) 0 d : ℝ) + p.kD d) * x d : ℝ) * Complex.I) =
        alpha * t.spinorRot s sC * (let v := comp C p.nSpinor p.GC.length b sC i * Complex.exp ((2 * Real.pi * ∑ d, ((p.GC.getD i 0 d : ℝ) + p.kC d) * (mulMV (castMat p.rot) (mulMV (castMat p.super) x) d + p.a d) : ℝ) * Complex.I)
          if p.invert < 0 then star v else v) := by
      intro i hi
      have hi := Finset.mem_range.1 hi
      have hget : p.GC.getD i 0 = p.GC[i] := by rw [List.getD_eq_getElem?_getD, List.getElem?_eq_getElem hi]; rfl
      have hgetD : p.GD.getD (idx t i) 0 = image p (p.GC.getD i 0) := by
        rw [List.getD_eq_getElem?_getD, hidx i _ (List.getElem?_eq_getElem hi), hget]; rfl
      rw [hgetD]
      generalize p.GC.getD i 0 = g at *
      have hphase : ∑ d, ((image p g d : ℝ) + p.kD d) * x d = (p.invert : ℝ) * ∑ d, ((g d : ℝ) + p.kC d) * mulMV (castMat p.rot) (mulMV (castMat p.super) x) d := by
        have : ∀ d, (image p g d : ℝ) + p.kD d = (mulVM g (affine p) d : ℤ) + mulVM p.kC (castMat (affine p)) d := by
          intro d
          unfold image
          push_cast
          rw [offset_exact p h]; ring
        simp only [this, Fin.sum_univ_three]
        simp only [affine, mulVM, mulMV, mulMM, smul, castMat]
        push_cast
        ring
      have hsum : ∑ d, ((g d : ℝ) + p.kC d) * (mulMV (castMat p.rot) (mulMV (castMat p.super) x) d + p.a d) =
          ∑ d, ((g d : ℝ) + p.kC d) * mulMV (castMat p.rot) (mulMV (castMat p.super) x) d + dot (fun d => (g d : ℝ) + p.kC d) p.a := by
        simp only [Fin.sum_univ_three, dot]; ring
      rw [hphase, hsum]
      generalize ∑ d, ((g d : ℝ) + p.kC d) * mulMV (castMat p.rot) (mulMV (castMat p.super) x) d = X
      unfold sv
      rw [hn, hnC, hinv]
      generalize comp C p.nSpinor p.GC.length b sC i = c
      have hpw : conjugator (decide (p.invert < 0)) (decide (p.invert < 0)) c (phaseAt t i) =
          (let v := c * Complex.exp ((2 * Real.pi * dot (fun d => (g d : ℝ) + p.kC d) p.a : ℝ) * Complex.I)
           if p.invert < 0 then star v else v) := by
        cases hw : phaseAt t i with
        | some w =>
          have e := (phase_unit p t hph i hi w hw).2
          have hgg : (fun d => (p.GC.getD i 0 d : ℝ) + p.kC d) = fun d => (g d : ℝ) + p.kC d := by
            rw [List.getD_eq_getElem?_getD, List.getElem?_eq_getElem hi, ← hget]; rfl
          rw [hgg, cis_exp] at e
          rw [e]
          unfold conjugator
          by_cases hneg : p.invert < 0
          · simp only [hneg, decide_true, if_true, star_mul']
          · simp only [hneg, decide_false, if_false, Bool.false_eq_true]
        | none =>
          have ha : dot p.a p.a = 0 := by
            unfold phaseAt at hw
            rw [hph] at hw
            unfold phases at hw
            by_contra hne
            rw [if_pos hne] at hw
            simp at hw
          have hz : ∀ d, p.a d = 0 := by
            intro d
            simp only [dot] at ha
            match d with
            | 0 => nlinarith [sq_nonneg (p.a 0), sq_nonneg (p.a 1), sq_nonneg (p.a 2)]
            | 1 => nlinarith [sq_nonneg (p.a 0), sq_nonneg (p.a 1), sq_nonneg (p.a 2)]
            | 2 => nlinarith [sq_nonneg (p.a 0), sq_nonneg (p.a 1), sq_nonneg (p.a 2)]
          have : dot (fun d => (g d : ℝ) + p.kC d) p.a = 0 := by simp [dot, hz]
          rw [this]
          unfold conjugator
          by_cases hneg : p.invert < 0 <;> simp [hneg]
      rw [hpw]
      rcases h.sign with hsg | hsg
      · simp only [hsg, show ¬ ((1 : Int) < 0) by norm_num, if_false]
        rw [mul_assoc, mul_assoc c, ← Complex.exp_add]
        congr 4
        push_cast; ring
      · simp only [hsg, show ((-1 : Int) < 0) by norm_num, if_true]
        rw [star_mul', star_mul', star_exp, star_exp, mul_assoc, mul_assoc (star c), ← Complex.exp_add]
        congr 4
        push_cast; ring
    rw [Finset.sum_congr rfl hterm, ← Finset.mul_sum, mul_assoc]
    congr 2
    by_cases hneg : p.invert < 0
    · simp only [hneg, if_true]
      exact (star_sum _ _).symm
    · simp only [hneg, if_false]
  · intro b' hb' j hj
    rw [hval b' j hj]
    rw [Finset.sum_eq_zero, add_zero]
    intro bC hbC
    rw [if_neg (hb' bC (Finset.mem_range.1 hbC))]

theorem foldlM_runs (n : Nat) (f : Mem → Nat → Res Mem) (h : ∀ y, ∀ b < n, ∃ y', f y b = .ok y') (y : Mem) : ∃ y', (List.range n).foldlM f y = .ok y' := by
  induction n with
  | zero => exact ⟨y, rfl⟩
  | succ n ih =>
    obtain ⟨y1, h1⟩ := ih fun y b hb => h y b (by omega)
    obtain ⟨y2, h2⟩ := h y1 n (by omega)
    refine ⟨y2, ?_⟩
    rw [List.range_succ, List.foldlM_append, h1]
    show (Bind.bind (f y1 n) fun z => pure z) = _
    rw [h2]; rfl

/-- Scattering and gathering run whenever the columns addressed exist. -/
theorem C59_runs (t : Tr) (alpha : ℂ) (C D : Mem) (nC nD st dt : Nat) (h : ∀ b < nC, st + dt * b < nD) :
    (∃ D', scatter t alpha C nC D nD st dt = .ok D') ∧ ∃ C', gather t alpha D nD st dt C nC = .ok C' := by
  constructor
  · exact foldlM_runs nC _ (fun y b hb => ⟨_, by unfold scatter1; rw [if_pos ⟨hb, h b hb⟩]⟩) D
  · exact foldlM_runs nC _ (fun y b hb => ⟨_, by unfold gather1; rw [if_pos ⟨hb, h b hb⟩]⟩) C

/-- A k-point on the boundary, turned by exchanging the first two axes, with a translation and time reversal; two spin components. -/
def sample : Inp where
  kC := vec (1/2) 0 0
  GC := [vec 0 0 0, vec (-1) 0 0, vec 0 1 0]
  kD := vec 0 (1/2) 0
  GD := [vec 0 0 0, vec 0 (-1) 0, vec (-1) (-1) 0]
  nSpinor := 2
  rot := fun i j => vec (vec 0 1 0) (vec 1 0 0) (vec 0 0 1) i j
  a := vec (1/2) 0 0
  invert := -1
  super := diag 1 1 1
  rotCart := fun i j => vec (vec 0 1 0) (vec 1 0 0) (vec 0 0 1) i j
  symmThreshold := 1 / 10000

theorem sample_offset : offset sample = vec 0 (-1) 0 := by
  funext i
  unfold offset kShift
  have e : mulVM sample.kC (castMat (affine sample)) i - sample.kD i = ((vec 0 (-1) 0 : V3 Int) i : ℝ) := by
    match i with
    | 0 => simp [sample, mulVM, castMat, affine, mulMM, smul, diag, vec]
    | 1 => simp [sample, mulVM, castMat, affine, mulMM, smul, diag, vec]; norm_num
    | 2 => simp [sample, mulVM, castMat, affine, mulMM, smul, diag, vec]
  rw [e, round_intCast]

example : Fits sample where
  nodupC := by decide
  nodupD := by decide
  nonempty := by decide
  image := by
    have : ∀ g ∈ sample.GC, (fun i => mulVM g (affine sample) i + (vec 0 (-1) 0 : V3 Int) i) ∈ sample.GD := by decide
    intro g hg
    unfold image
    rw [sample_offset]
    exact this g hg
  kpoint := by
    intro i
    refine ⟨(vec 0 (-1) 0 : V3 Int) i, ?_⟩
    match i with
    | 0 => simp [sample, mulVM, castMat, affine, mulMM, smul, diag, vec]
    | 1 => simp [sample, mulVM, castMat, affine, mulMM, smul, diag, vec]; norm_num
    | 2 => simp [sample, mulVM, castMat, affine, mulMM, smul, diag, vec]
  sign := Or.inr rfl
  spin := Or.inr rfl
  threshold := by norm_num [sample]
  rot := by decide
  super := by decide

/-- The check that every image was found can pass although one is missing: a vector outside the look-up box is taken for another one when its linear
position falls on an entry. Here `(0,0,2)` is not in the basis, yet the search answers 2, the place of `(0,1,-1)`. -/
theorem C59_wrap_violation : ∃ (G : List (V3 Int)) (g : V3 Int), g ∉ G ∧ G.Nodup ∧ lookup G g = .ok 2 ∧ G[2]? = some (vec 0 1 (-1)) :=
  ⟨[vec 0 0 0, vec 0 0 1, vec 0 1 (-1)], vec 0 0 2, by decide, by decide, by with_unfolding_all rfl, rfl⟩

end Jdftx.ColT
