import Verif.Lemmas.PspNonlocal

/-!
# C102: forces and stresses due to pseudopotentials
-/
namespace Jdftx.Psp
noncomputable section
open M3 Real
open CoulK (ofIV halfWeight scale gsq wave cart)
open Ewald (toR outer displace strained contract)
open scoped ComplexConjugate Matrix
open MatFn (conj_deriv re_deriv ofReal_deriv MDeriv)

variable {np nb nG n : ℕ}

/-- **C102 (local forces).** Any energy, any point at which its gradients with respect to the fields of the ions are known, any atom and direction: the energy changes by minus the force
that the code returns times the displacement. -/
theorem C102_local_forces (sp : Local) (S : Box.Size) (GGT : Mat ℝ) (vol : ℝ) (hvol : vol ≠ 0) (E : Fields → ℝ) (f : Fields) (g : Grads) (pos : Fin n → V3 ℝ) (a : Fin n) (u : V3 ℝ)
    (hE : IsGradient S vol E (updateLocal sp S GGT (1 / vol) pos f) g) :
    HasDerivAt (fun t => E (updateLocal sp S GGT (1 / vol) (displace pos a u t) f)) (-∑ k, localForce sp S GGT g (pos a) k * u k) 0 := by
  have h0 : displace pos a u 0 = pos := by funext b k; simp [displace]
  have h := hE (fun t => updateLocal sp S GGT (1 / vol) (displace pos a u t) f) _ (by simp only [h0]) (updateLocal_deriv sp S GGT (1 / vol) pos f a u)
  refine h.congr_deriv ?_
  rw [pair_fieldsOf, ← force_sum]
  have e : (fun i => conj (gradSG sp S GGT g i) * (dsg (iGof S i) (pos a) u * ((1 / vol : ℝ) : ℂ))) = fun i => ((1 / vol : ℝ) : ℂ) * (conj (gradSG sp S GGT g i) * dsg (iGof S i) (pos a) u) := by
    funext i; ring
  rw [e, sumHalf_smul]
  field_simp

/-- Gradients of this kind exist: those of an energy that is linear in the fields. -/
theorem linear_isGradient (S : Box.Size) (vol : ℝ) (f : Fields) (g : Grads) : IsGradient S vol (fun f => vol * g.pair S f) f g := by
  intro γ δ _ h
  have d : ∀ (r : Box.Arr) (y : ℝ → Box.Arr) (y' : Box.Arr), (∀ i, HasDerivAt (fun t => y t i) (y' i) 0) → HasDerivAt (fun t => Box.dotHalf S r (y t)) (Box.dotHalf S r y') 0 := by
    intro r y y' hy
    simp only [dotHalf_sumHalf, sumHalf_re]
    have hr : ∀ i, HasDerivAt (fun t => (conj (r i) * y t i).re) (conj (r i) * y' i).re 0 := fun i => re_deriv ((hy i).const_mul _)
    refine HasDerivAt.sub (HasDerivAt.sub ((HasDerivAt.fun_sum fun j _ => hr _).const_mul 2) (HasDerivAt.fun_sum fun j _ => hr _)) ?_
    split
    · exact hasDerivAt_const _ _
    · exact HasDerivAt.fun_sum fun j _ => hr _
  refine HasDerivAt.const_mul vol ?_
  unfold Grads.pair
  refine HasDerivAt.add (HasDerivAt.add (HasDerivAt.add (HasDerivAt.add (d _ _ _ h.V) ?_) ?_) (d _ _ _ h.nc)) ?_
  · cases g.rho with
    | none => exact hasDerivAt_const _ _
    | some r => exact d _ _ _ h.rho
  · cases g.cb with
    | none => exact hasDerivAt_const _ _
    | some r => exact d _ _ _ h.cb
  · cases g.tau with
    | none => exact hasDerivAt_const _ _
    | some r => exact d _ _ _ h.tau

theorem diag_det : det (diag 1 2 3 : Mat ℝ) ≠ 0 := by
  have : det (diag 1 2 3 : Mat ℝ) = 6 := by
    simp [det, box, dot, cross, row, diag, vec]; norm_num
  rw [this]; norm_num

/-- A species with a local potential, a charge ball and a partial core. -/
def exLocal : Local where
  Vloc := fun q => q ^ 2
  dVloc := fun q => 2 * q
  Z := 3
  Zcb := 1
  wcb := 2
  hasCore := true
  nCore := fun q => q
  dnCore := fun _ => 1
  hasTau := false
  tauCore := fun _ => 0
  dtauCore := fun _ => 0

theorem exLocal_ok : exLocal.OK where
  V := fun x _ => (hasDerivAt_pow 2 x).congr_deriv (by simp [exLocal])
  core := fun x _ => hasDerivAt_id x
  tau := fun x _ => hasDerivAt_const _ _

example (g : Grads) (pos : Fin 2 → V3 ℝ) (u : V3 ℝ) := C102_local_forces exLocal ⟨4, 4, 4⟩ (Basis.GGT (diag 1 1 1)) 2 (by norm_num) _ noFields g pos 1 u (linear_isGradient _ 2 _ g)

/-- **C102 (local stress).** For fixed gradients and any strain: the change of the volume times their inner product with the fields of the ions, of which the products of volume and
fields depend on the lattice only through the lengths of reciprocal vectors. -/
theorem C102_local_stress (sp : Local) (hsp : sp.OK) (S : Box.Size) (hS : S.Pos) (h2 : S.s2 = 1 ∨ S.s2 % 2 = 0) (R : Mat ℝ) (hR : det R ≠ 0) (e : Mat ℝ) (g : Grads) (pos : Fin n → V3 ℝ) :
    HasDerivAt (fun t => |det (strained R e t)| * g.pair S (updateLocal sp S (Basis.GGT (strained R e t)) (1 / |det (strained R e t)|) pos noFields))
      (contract (localStress sp S R g pos) e) 0 := by
  classical
  have h1 : ∀ R' : Mat ℝ, det R' ≠ 0 → |det R'| * g.pair S (updateLocal sp S (Basis.GGT R') (1 / |det R'|) pos noFields)
      = ∑ i ∈ Finset.range (Box.nG S), halfWeight S (Box.hStart S i) * (conj (gradSG sp S (Basis.GGT R') g i) * sg pos (iGof S i)).re := by
    intro R' hR'
    have hd : |det R'| ≠ 0 := abs_ne_zero.2 hR'
    rw [update_noFields, pair_fieldsOf, ← sumHalf_weights S hS h2 (fun i => gradSG sp S (Basis.GGT R') g i) (fun i => sg pos (iGof S i))]
    have e1 : (fun i => conj (gradSG sp S (Basis.GGT R') g i) * (sg pos (iGof S i) * ((1 / |det R'| : ℝ) : ℂ))) = fun i => ((1 / |det R'| : ℝ) : ℂ) * (conj (gradSG sp S (Basis.GGT R') g i) * sg pos (iGof S i)) := by
      funext i; ring
    rw [e1, sumHalf_smul]
    field_simp
  have h3 : HasDerivAt (fun t => ∑ i ∈ Finset.range (Box.nG S), halfWeight S (Box.hStart S i) * (conj (gradSG sp S (Basis.GGT (strained R e t)) g i) * sg pos (iGof S i)).re)
      (contract (localStress sp S R g pos) e) 0 := by
    have hi : ∀ i ∈ Finset.range (Box.nG S), HasDerivAt (fun t => halfWeight S (Box.hStart S i) * (conj (gradSG sp S (Basis.GGT (strained R e t)) g i) * sg pos (iGof S i)).re)
        (contract (cart (Basis.G R) (stressCalc sp S (Basis.GGT R) g pos i)) e) 0 := by
      intro i _
      have hg := (re_deriv ((conj_deriv (gradSG_deriv sp hsp S R hR e g i)).mul_const (sg pos (iGof S i)))).const_mul (halfWeight S (Box.hStart S i))
      refine hg.congr_deriv ?_
      simp only [stressCalc, CoulK.cart_scale, CoulK.cart_outer, CoulK.contract_scale, map_mul, Complex.conj_ofReal]
      rw [mul_assoc (conj _), mul_comm ((_ : ℝ) : ℂ), ← mul_assoc (conj _), mul_comm _ ((_ : ℝ) : ℂ), Complex.re_ofReal_mul]
      ring
    refine (HasDerivAt.fun_sum hi).congr_deriv ?_
    have e1 : localStress sp S R g pos = cart (Basis.G R) (fun a b => ∑ i ∈ Finset.range (Box.nG S), stressCalc sp S (Basis.GGT R) g pos i a b) := rfl
    rw [e1, CoulK.cart_sum, CoulK.contract_sum]
  refine h3.congr_of_eventuallyEq ?_
  filter_upwards [CoulK.det_near R hR e] with t ht
  exact h1 _ ht

example (g : Grads) (pos : Fin 2 → V3 ℝ) (e : Mat ℝ) := C102_local_stress exLocal exLocal_ok ⟨4, 4, 4⟩ (by constructor <;> norm_num) (Or.inr rfl) (diag 1 2 3) diag_det e g pos

/-- **C102 (nonlocal forces).** The energy of the projectors, with the contribution of the overlap for ultrasoft pseudopotentials, changes by minus the force times the displacement, for
all wavefunctions, fillings, atoms and directions. -/
theorem C102_nonlocal_forces (c : Nonlocal np nb nG) (hc : c.OK) (R : Mat ℝ) (hR : det R ≠ 0) (pos : Fin n → V3 ℝ) (a : Fin n) (u : V3 ℝ) :
    HasDerivAt (fun t => energy c (Basis.G R) (displace pos a u t)) (-∑ k, nonlocalForce c R (pos a) k * u k) 0 := by
  classical
  simp only [energy_eq]
  have h : ∀ b ∈ Finset.univ, HasDerivAt (fun t => atomE c (projections c (Basis.G R) (displace pos a u t b)))
      (if b = a then 2 * (Matrix.trace (eA c ((vnl c (Basis.G R) (pos a))ᴴ * c.C) * ((Matrix.of fun i p => (⟨0, -2 * π * dot u (kpG c i)⟩ : ℂ) * vnl c (Basis.G R) (pos a) i p : Matrix (Fin nG) (Fin np) ℂ)ᴴ * c.C)ᴴ)).re else 0) 0 := by
    intro b _
    by_cases hb : b = a
    · subst hb
      rw [if_pos rfl]
      simp only [displace_self, projections_eq]
      have := atomE_deriv c hc _ _ (proj_deriv c _ _ (vnl_pos_deriv c (Basis.G R) (pos b) u))
      simpa using this
    · rw [if_neg hb]
      simp only [displace_ne pos a b hb]
      exact hasDerivAt_const _ _
  refine ((HasDerivAt.fun_sum h).const_mul c.w).congr_deriv ?_
  rw [Finset.sum_ite_eq' Finset.univ a, if_pos (Finset.mem_univ a)]
  exact nonlocalForce_sum c R hR (pos a) u

/-- **C102 (nonlocal stress).** When the sums over projectors are rotationally symmetric, the stress from six components, of which three are copied to the other half of the matrix,
gives the change of the energy under every strain. -/
theorem C102_nonlocal_stress (c : Nonlocal np nb nG) (hc : c.OK) (hM : RotInv c.proj c.M) (hQ : ∀ Q, c.Q = some Q → RotInv c.proj Q) (R : Mat ℝ) (hR : det R ≠ 0) (e : Mat ℝ) (pos : Fin n → V3 ℝ) :
    HasDerivAt (fun t => energy c (Basis.G (strained R e t)) pos) (contract (nonlocalStress c R pos) e) 0 := by
  simp only [energy_eq, Finset.mul_sum, projections_eq, vnl_at]
  have hw : ∀ R' (i : Fin nG), qvec c (Basis.G R') i = wave R' (kpG c i) := fun _ _ => rfl
  have h : ∀ a ∈ Finset.univ, HasDerivAt (fun t => c.w * atomE c ((vnlAt c (pos a) (qvec c (Basis.G (strained R e t))))ᴴ * c.C)) (∑ i, ∑ j, stressIJ c R (pos a) i j * e i j) 0 := by
    intro a _
    refine curve_deriv c hc R (pos a) e (fun t => qvec c (Basis.G (strained R e t))) (by simp only [Ewald.strained_zero]) ?_ ?_
    · intro i hi t
      simp only [Ewald.strained_zero, hw] at hi
      have hk := (CoulK.wave_zero_iff R hR _).1 hi
      show qvec c (Basis.G (strained R e t)) i = 0
      rw [hw, hk]
      funext k; simp [wave, mulVM]
    · intro i k
      simp only [Ewald.strained_zero, hw]
      exact CoulK.wave_deriv R hR e (kpG c i) k
  refine (HasDerivAt.fun_sum h).congr_deriv ?_
  unfold contract
  simp only [nonlocalStress_apply c R pos (fun x => stressIJ_symm c hc hM hQ R x), Finset.sum_mul]
  rw [Finset.sum_comm]
  refine Finset.sum_congr rfl fun i _ => ?_
  rw [Finset.sum_comm]

/-- Projectors of angular momentum 1. -/
def pProj (k : Fin 3) : Proj where
  V := fun q => q
  dV := fun _ => 1
  Y := fun v => v k
  dY := fun _ j => if j = k then 1 else 0

theorem pProj_ok (k : Fin 3) : (pProj k).OK where
  V := fun x _ => hasDerivAt_id x
  Y := fun q q' _ h => by
    refine (h k).congr_deriv ?_
    fin_cases k <;> simp [pProj, dot]

theorem pProj_prefac (k : Fin 3) (q : V3 ℝ) : prefac (pProj k) q = q k := by
  simp only [prefac, pProj, hat, invLen_eq]
  by_cases h : q = 0
  · subst h; simp
  · have := length_ne q h
    field_simp

theorem pProj_rot : RotInv pProj (1 : Matrix (Fin 3) (Fin 3) ℂ) := by
  intro U hU q q'
  have h : ∀ i j, mulMM (M3.transpose U) U i j = diag 1 1 1 i j := fun i j => by rw [hU]
  have h00 := h 0 0
  have h01 := h 0 1
  have h02 := h 0 2
  have h11 := h 1 1
  have h12 := h 1 2
  have h22 := h 2 2
  simp [mulMM, M3.transpose, diag, vec] at h00 h01 h02 h11 h12 h22
  simp only [pProj_prefac, Fin.sum_univ_three, Matrix.one_apply, mulMV]
  simp
  norm_cast
  linear_combination q 0 * q' 0 * h00 + q 1 * q' 1 * h11 + q 2 * q' 2 * h22 + (q 0 * q' 1 + q 1 * q' 0) * h01 + (q 0 * q' 2 + q 2 * q' 0) * h02 + (q 1 * q' 2 + q 2 * q' 1) * h12

/-- A case: three projectors, two bands, two plane waves, with augmentation. -/
def exNonlocal : Nonlocal 3 2 2 where
  proj := pProj
  M := 1
  Q := some 1
  k := vec 0.5 0 0
  iG := fun i _ => i.val
  C := fun i b => ⟨i.val, b.val + 1⟩
  F := fun _ => 2
  w := 1
  gradOverlap := 1

theorem exNonlocal_ok : exNonlocal.OK where
  proj := pProj_ok
  M := Matrix.isHermitian_one
  Q := fun Q h => by
    have : Q = 1 := (Option.some.inj h).symm
    rw [this]; exact Matrix.isHermitian_one
  overlap := Matrix.isHermitian_one

example (pos : Fin 2 → V3 ℝ) (u : V3 ℝ) := C102_nonlocal_forces exNonlocal exNonlocal_ok (diag 1 2 3) diag_det pos 0 u

example (pos : Fin 2 → V3 ℝ) (e : Mat ℝ) := C102_nonlocal_stress exNonlocal exNonlocal_ok pProj_rot
  (fun Q h => by
    have : Q = 1 := (Option.some.inj h).symm
    rw [this]; exact pProj_rot) (diag 1 2 3) diag_det e pos

theorem inv_coords (G : Mat ℝ) (hG : det G ≠ 0) (κ : V3 ℝ) : mulVM (mulVM κ G) (Basis.inv G) = κ := by
  have h : det G * (1 / det G) = 1 := by field_simp
  funext k
  have e : mulVM (mulVM κ G) (Basis.inv G) k = κ k * (det G * (1 / det G)) := by
    generalize hd : 1 / det G = d
    simp only [mulVM, Basis.inv, smul, hd]
    fin_cases k <;> simp [det, box, dot, cross, row, vec, adjugate, ofCols] <;> ring
  rw [e, h, mul_one]

/-- **C102 (derivative with the wave vector).** When the wave vector moves along the Cartesian direction `dir`, with reciprocal lattice coordinates `κ`, every projector changes at the rate
that the code returns, at every plane wave except that with zero wave vector. Partial: see `C102_velocity_zero_fails`. -/
theorem C102_velocity_partial (c : Nonlocal np nb nG) (hc : ∀ p, (c.proj p).OK) (G : Mat ℝ) (hG : det G ≠ 0) (x dir κ : V3 ℝ) (hκ : mulVM κ G = dir) (i : Fin nG) (p : Fin np) (h0 : qvec c G i ≠ 0) :
    HasDerivAt (fun t : ℝ => vnl { c with k := fun j => c.k j + t * κ j } G x i p) (vnlPrime c G x dir i p) 0 := by
  have hinv : mulVM dir (Basis.inv G) = κ := by rw [← hκ, inv_coords G hG]
  have hk : ∀ j, HasDerivAt (fun t : ℝ => kpG { c with k := fun j => c.k j + t * κ j } i j) (κ j) 0 := fun j => by
    simp only [kpG]
    simpa using (((hasDerivAt_id (0 : ℝ)).mul_const (κ j)).const_add (c.k j)).add_const (toR (c.iG i) j)
  have hz : ∀ j, kpG { c with k := fun j => c.k j + 0 * κ j } i j = kpG c i j := fun j => by simp [kpG]
  have hz' : kpG { c with k := fun j => c.k j + 0 * κ j } i = kpG c i := funext hz
  have hq : ∀ j, HasDerivAt (fun t : ℝ => qvec { c with k := fun j => c.k j + t * κ j } G i j) (dir j) 0 := fun j => by
    rw [← hκ]
    simp only [qvec, mulVM]
    exact ((((hk 0).mul_const _).const_add _).add ((hk 1).mul_const _)).add ((hk 2).mul_const _) |>.congr_deriv (by ring)
  have hq0 : qvec { c with k := fun j => c.k j + 0 * κ j } G i = qvec c G i := by simp only [qvec, hz']
  have h1 := prefac_deriv (c.proj p) (hc p) (fun t => qvec { c with k := fun j => c.k j + t * κ j } G i) dir (by simp only [hq0]; exact h0) hq
  have hd : HasDerivAt (fun t => -2 * π * dot x (kpG { c with k := fun j => c.k j + t * κ j } i)) (-2 * π * dot x κ) 0 := by
    unfold dot
    exact ((((hk 0).const_mul _).add ((hk 1).const_mul _)).add ((hk 2).const_mul _)).const_mul _
  have h2 := (ofReal_deriv h1).mul (cis_deriv hd)
  refine h2.congr_deriv ?_
  simp only [hq0, hz', vnlPrime, Matrix.of_apply, hinv]
  have hI : (⟨0, -dot x fun j => 2 * π * κ j⟩ : ℂ) = ⟨0, -2 * π * dot x κ⟩ := by
    apply Complex.ext
    · rfl
    · simp only [dot]; ring
  rw [hI]
  have hp : ∑ j, VYprime (c.proj p) (qvec c G i) j * dir j = dot ((c.proj p).dY (hat (qvec c G i))) (fun j => dir j - hat (qvec c G i) j * dot (hat (qvec c G i)) dir) * invLen (qvec c G i) * (c.proj p).V (Basis.length (qvec c G i))
      + (c.proj p).Y (hat (qvec c G i)) * ((c.proj p).dV (Basis.length (qvec c G i)) * dot (hat (qvec c G i)) dir) := by
    simp only [VYprime, Fin.sum_univ_three, dot]; ring
  rw [hp]
  simp only [prefac]
  ring

example (x : V3 ℝ) : HasDerivAt (fun t : ℝ => vnl { exNonlocal with k := fun j => exNonlocal.k j + t * (vec 1 0 0 : V3 ℝ) j } (diag 1 2 3) x 0 0) (vnlPrime exNonlocal (diag 1 2 3) x (vec 1 0 0) 0 0) 0 :=
  C102_velocity_partial exNonlocal pProj_ok (diag 1 2 3) diag_det x _ (vec 1 0 0)
    (by funext j; fin_cases j <;> simp [mulVM, diag, vec]) 0 0
    (fun h => by
      have := congrFun h 0
      norm_num [qvec, kpG, exNonlocal, mulVM, diag, vec, toR] at this)

/-- One projector of angular momentum 1 and the plane wave with zero wave vector. -/
def exGamma : Nonlocal 1 1 1 where
  proj := fun _ => pProj 2
  M := 1
  Q := none
  k := fun _ => 0
  iG := fun _ _ => 0
  C := 1
  F := fun _ => 2
  w := 1
  gradOverlap := 1

/-- **C102 (derivative at zero wave vector).** There, projectors of angular momentum 1 change, but the code returns zero. -/
theorem C102_velocity_zero_fails : ∃ (c : Nonlocal 1 1 1) (x dir : V3 ℝ), (∀ p, (c.proj p).OK) ∧
    HasDerivAt (fun t : ℝ => vnl { c with k := fun j => c.k j + t * dir j } (diag 1 1 1) x 0 0) 1 0 ∧ vnlPrime c (diag 1 1 1) x dir 0 0 = 0 := by
  refine ⟨exGamma, fun _ => 0, vec 0 0 1, fun _ => pProj_ok 2, ?_, ?_⟩
  · have e : (fun t : ℝ => vnl { exGamma with k := fun j => exGamma.k j + t * (vec 0 0 1 : V3 ℝ) j } (diag 1 1 1) (fun _ => 0) 0 0) = fun t : ℝ => (t : ℂ) := by
      funext t
      simp only [vnl, Matrix.of_apply]
      have h1 : prefac (pProj 2) (qvec { exGamma with k := fun j => exGamma.k j + t * (vec 0 0 1 : V3 ℝ) j } (diag 1 1 1) 0) = t := by
        rw [pProj_prefac]
        simp [qvec, mulVM, kpG, exGamma, diag, vec, toR]
      have h2 : Euler.cis (-2 * π * dot (fun _ => (0 : ℝ)) (kpG { exGamma with k := fun j => exGamma.k j + t * (vec 0 0 1 : V3 ℝ) j } 0)) = 1 := by
        simp [dot, EXX.cis_zero]
      rw [h2, mul_one]
      exact congrArg Complex.ofReal h1
    rw [e]
    simpa using ofReal_deriv (hasDerivAt_id (0 : ℝ))
  · have hq : qvec exGamma (diag 1 1 1) 0 = 0 := by
      funext j; simp [qvec, mulVM, kpG, exGamma, toR]
    simp only [vnlPrime, Matrix.of_apply, hq]
    have hl : Basis.length (0 : V3 ℝ) = 0 := by simp [Basis.length]
    have hi : invLen (0 : V3 ℝ) = 0 := by rw [invLen_eq, hl, inv_zero]
    have hh : hat (0 : V3 ℝ) = 0 := by funext j; simp [hat]
    simp [hl, hi, hh, exGamma, pProj, dot]

theorem cache_inv {P L K D W : Type} (compute : P → L → K → Option D → Int → W) (useCache : Bool) (ops : List (Op P L K D)) :
    ∀ (s : Cache P L K W) (b : Bool), (∀ e ∈ s.cached, e.2 = compute s.pos s.Rprev e.1 none 0) → (b = true → s.R = s.Rprev) → Updated b ops →
      outputs compute useCache s ops = expected compute s.pos s.R ops := by
  classical
  induction ops with
  | nil => intros; rfl
  | cons op ops ih =>
    intro s b hc hb hu
    cases op with
    | move pos =>
      simp only [outputs, expected, opStep]
      rw [ih { s with pos := pos, cached := [] } b (by simp) hb hu]
    | lattice R =>
      simp only [outputs, expected, opStep]
      rw [ih { s with R := R } false hc (by simp) hu]
    | update =>
      simp only [outputs, expected, opStep]
      congr 1
      split
      · exact ih { s with Rprev := s.R, cached := [] } true (by simp) (fun _ => rfl) hu
      · rename_i h
        have h' : s.Rprev = s.R := not_ne_iff.1 h
        exact ih { s with Rprev := s.R } true (by simpa only [h'] using hc) (fun _ => rfl) hu
    | getV k d sd =>
      have hR := hb hu.1
      simp only [outputs, expected, opStep]
      by_cases hg : useCache = true ∧ d = none ∧ sd = 0
      · obtain ⟨h1, rfl, rfl⟩ := hg
        cases hf : s.cached.find? (fun e => decide (e.1 = k)) with
        | some e =>
          have hv : getV compute useCache s k none 0 = (s, e.2) := by
            simp only [getV, h1, hf, and_self, if_true]
          have hm := List.mem_of_find?_eq_some hf
          have hk : e.1 = k := by simpa using List.find?_some hf
          rw [hv, hc e hm, hk, ← hR, ih s b hc hb hu.2]
        | none =>
          have hv : getV compute useCache s k none 0 = ({ s with cached := (k, compute s.pos s.R k none 0) :: s.cached }, compute s.pos s.R k none 0) := by
            simp only [getV, h1, hf, and_self, if_true]
          rw [hv]
          congr 1
          exact ih { s with cached := (k, compute s.pos s.R k none 0) :: s.cached } b
            (fun e he => by
              rcases List.mem_cons.1 he with rfl | he
              · show compute s.pos s.R k none 0 = compute s.pos s.Rprev k none 0
                rw [hR]
              · exact hc e he) hb hu.2
      · have hv : getV compute useCache s k d sd = (s, compute s.pos s.R k d sd) := by
          simp only [getV, if_neg hg]
        rw [hv, ih s b hc hb hu.2]

/-- **C102 (cache).** Whatever the history of moves, lattice changes, updates and requests, with or without the cache: if an update follows every lattice change before the next request,
every request returns the projectors for the current positions and lattice. -/
theorem C102_cache {P L K D W : Type} (compute : P → L → K → Option D → Int → W) (useCache : Bool) (ops : List (Op P L K D)) (pos : P) (R : L) (hu : Updated true ops) :
    outputs compute useCache ⟨pos, R, R, []⟩ ops = expected compute pos R ops :=
  cache_inv compute useCache ops ⟨pos, R, R, []⟩ true (by simp) (fun _ => rfl) hu

example : Updated (P := ℕ) (L := ℕ) (K := ℕ) (D := ℕ) true [.getV 0 none 0, .lattice 2, .update, .getV 0 none 0, .move 1, .getV 0 none 4, .getV 0 none 0] := by
  simp [Updated]

/-- **C102 (cache, requests before an update).** Without that condition the cache can return projectors for another lattice, even after an update: a request between two lattice changes
that cancel. -/
theorem C102_cache_stale_fails : ∃ (compute : ℕ → ℕ → ℕ → Option ℕ → Int → ℕ) (ops : List (Op ℕ ℕ ℕ ℕ)),
    (outputs compute true ⟨0, 1, 1, []⟩ ops).getLast? = some (some 2) ∧ (expected compute 0 1 ops).getLast? = some (some 1) ∧ ops.getLast? = some (.getV 0 none 0) ∧ ops[3]? = some .update := by
  refine ⟨fun _ L _ _ _ => L, [.lattice 2, .getV 0 none 0, .lattice 1, .update, .getV 0 none 0], ?_, ?_, rfl, rfl⟩
  · simp [outputs, opStep, getV]
  · simp [expected]

end
end Jdftx.Psp
