import Verif.Spec.Psp
import Verif.Lemmas.CoulombStress
import Verif.Lemmas.MatrixDeriv
import Verif.Lemmas.ExactX
import Verif.Props.HalfFFT

/-!
# Lemmas for C102: local part
-/
namespace Jdftx.Psp
noncomputable section
open M3 Real
open CoulK (ofIV halfWeight scale gsq wave cart)
open Ewald (toR outer displace strained contract)
open scoped ComplexConjugate
open MatFn (conj_deriv re_deriv ofReal_deriv)

theorem sumHalf_re (S : Box.Size) (X : Box.Arr) : Box.sumHalf S X = 2 * ∑ j ∈ Finset.range (Box.nG S), (X (j : Nat)).re
    - ∑ j ∈ Finset.range (S.s0 * S.s1), (X ((j * (S.s2 / 2 + 1) : Nat))).re
    - (if S.s2 / 2 + 1 = 1 then 0 else ∑ j ∈ Finset.range (S.s0 * S.s1), (X (((S.s2 / 2 + 1 - 1 : Nat) : Int) + (j * (S.s2 / 2 + 1) : Nat))).re) := by
  unfold Box.sumHalf Box.zdotc Box.shift
  simp only [mul_one, Complex.sub_re, Complex.mul_re, Complex.re_sum, Complex.conj_re]
  split <;> simp [Complex.re_sum]

theorem dotHalf_sumHalf (S : Box.Size) (X Y : Box.Arr) : Box.dotHalf S X Y = Box.sumHalf S (fun i => conj (X i) * Y i) := by
  rw [sumHalf_re, Box.dotHalf_re]
  simp only [Nat.add_sub_cancel, Nat.cast_add]

theorem sumHalf_add (S : Box.Size) (X Y : Box.Arr) : Box.sumHalf S (fun i => X i + Y i) = Box.sumHalf S X + Box.sumHalf S Y := by
  simp only [sumHalf_re, Complex.add_re, Finset.sum_add_distrib]
  split <;> ring

theorem sumHalf_smul (S : Box.Size) (r : ℝ) (X : Box.Arr) : Box.sumHalf S (fun i => (r : ℂ) * X i) = r * Box.sumHalf S X := by
  simp only [sumHalf_re, Complex.re_ofReal_mul, ← Finset.mul_sum]
  split <;> ring

theorem sumHalf_zero (S : Box.Size) : Box.sumHalf S (fun _ => 0) = 0 := by
  simp [sumHalf_re]

theorem sumHalf_sum (S : Box.Size) {ι : Type*} (s : Finset ι) (X : ι → Box.Arr) : Box.sumHalf S (fun i => ∑ k ∈ s, X k i) = ∑ k ∈ s, Box.sumHalf S (X k) := by
  classical
  induction s using Finset.induction_on with
  | empty => simp [sumHalf_zero]
  | insert a s ha ih => simp only [Finset.sum_insert ha, sumHalf_add, ih]

theorem cis_deriv {φ : ℝ → ℝ} {φ' t : ℝ} (h : HasDerivAt φ φ' t) : HasDerivAt (fun t => Euler.cis (φ t)) (⟨0, φ'⟩ * Euler.cis (φ t)) t := by
  simp only [EXX.cis_exp]
  have h1 := ((ofReal_deriv h).mul_const Complex.I).cexp
  refine h1.congr_deriv ?_
  have : (⟨0, φ'⟩ : ℂ) = φ' * Complex.I := by apply Complex.ext <;> simp
  rw [this]; ring

/-- Change of the structure factor when one atom moves. -/
def dsg (iG : Fin 3 → Int) (x u : V3 ℝ) : ℂ := ⟨0, -2 * π * dot (toR iG) u⟩ * Euler.cis (-2 * π * dot (toR iG) x)

theorem sg_deriv {n : ℕ} (pos : Fin n → V3 ℝ) (c : Fin n) (u : V3 ℝ) (iG : Fin 3 → Int) :
    HasDerivAt (fun t => sg (displace pos c u t) iG) (dsg iG (pos c) u) 0 := by
  classical
  unfold sg
  have h : ∀ a ∈ Finset.univ, HasDerivAt (fun t => Euler.cis (-2 * π * dot (toR iG) (displace pos c u t a))) (if a = c then dsg iG (pos c) u else 0) 0 := by
    intro a _
    by_cases hac : a = c
    · subst hac
      simp only [if_true]
      have hp : ∀ k, HasDerivAt (fun t => displace pos a u t a k) (u k) 0 := fun k => by
        simp only [displace, if_true]
        simpa using ((hasDerivAt_id (0 : ℝ)).mul_const (u k)).const_add (pos a k)
      have hd : HasDerivAt (fun t => -2 * π * dot (toR iG) (displace pos a u t a)) (-2 * π * dot (toR iG) u) 0 := by
        unfold dot
        exact ((((hp 0).const_mul _).add ((hp 1).const_mul _)).add ((hp 2).const_mul _)).const_mul _
      have := cis_deriv hd
      have e : displace pos a u 0 a = pos a := by funext k; simp [displace]
      rw [e] at this
      exact this
    · simp only [if_neg hac]
      have e : (fun t => Euler.cis (-2 * π * dot (toR iG) (displace pos c u t a))) = fun _ => Euler.cis (-2 * π * dot (toR iG) (pos a)) := by
        funext t
        have : displace pos c u t a = pos a := by funext k; simp [displace, hac]
        rw [this]
      rw [e]
      exact hasDerivAt_const _ _
  refine (HasDerivAt.fun_sum h).congr_deriv ?_
  simp

open Classical in
/-- The fields of one species with a given structure factor. -/
def fieldsOf (sp : Local) (S : Box.Size) (GGT : Mat ℝ) (s : Box.Arr) : Fields :=
  let Gsq := fun i => gsq GGT (toR (iGof S i))
  { V := fun i => s i * (sp.Vloc (sqrt (Gsq i)) : ℂ)
    rho := fun i => s i * (-(sp.Z : ℂ))
    cb := if sp.Zcb ≠ 0 then fun i => s i * (sp.Zcb : ℂ) * (exp (-0.5 * Gsq i * sp.wcb ^ 2) : ℂ) else fun _ => 0
    nc := if sp.hasCore then fun i => s i * (sp.nCore (sqrt (Gsq i)) : ℂ) else fun _ => 0
    tau := if sp.hasTau then fun i => s i * (sp.tauCore (sqrt (Gsq i)) : ℂ) else fun _ => 0 }

theorem updateLocal_deriv (sp : Local) (S : Box.Size) (GGT : Mat ℝ) (invVol : ℝ) {n : ℕ} (pos : Fin n → V3 ℝ) (f : Fields) (c : Fin n) (u : V3 ℝ) :
    FieldDeriv (fun t => updateLocal sp S GGT invVol (displace pos c u t) f) (fieldsOf sp S GGT fun i => dsg (iGof S i) (pos c) u * (invVol : ℂ)) := by
  have h := fun i => (sg_deriv pos c u (iGof S i)).mul_const (invVol : ℂ)
  constructor
  · intro i; exact ((h i).mul_const _).const_add _
  · intro i; exact ((h i).mul_const _).const_add _
  · intro i
    simp only [updateLocal, fieldsOf]
    split
    · exact (((h i).mul_const _).mul_const _).const_add _
    · exact hasDerivAt_const _ _
  · intro i
    simp only [updateLocal, fieldsOf]
    split
    · exact ((h i).mul_const _).const_add _
    · exact hasDerivAt_const _ _
  · intro i
    simp only [updateLocal, fieldsOf]
    split
    · exact ((h i).mul_const _).const_add _
    · exact hasDerivAt_const _ _

/-- The inner product of gradients with the fields of a structure factor is the inner product of the gradient with respect to the structure factor. -/
theorem pair_fieldsOf (sp : Local) (S : Box.Size) (GGT : Mat ℝ) (g : Grads) (s : Box.Arr) :
    g.pair S (fieldsOf sp S GGT s) = Box.sumHalf S (fun i => conj (gradSG sp S GGT g i) * s i) := by
  simp only [Grads.pair, dotHalf_sumHalf]
  have e : (fun i => conj (gradSG sp S GGT g i) * s i) = fun i => conj (g.V i) * (fieldsOf sp S GGT s).V i
      + (match g.rho with | some r => conj (r i) * (fieldsOf sp S GGT s).rho i | none => 0)
      + (match g.cb with | some r => conj (r i) * (fieldsOf sp S GGT s).cb i | none => 0)
      + conj (g.nc i) * (fieldsOf sp S GGT s).nc i
      + (match g.tau with | some r => conj (r i) * (fieldsOf sp S GGT s).tau i | none => 0) := by
    funext i
    simp only [gradSG, fieldsOf]
    cases g.rho <;> cases g.cb <;> cases g.tau <;> by_cases h1 : sp.Zcb = 0 <;> cases sp.hasCore <;> cases sp.hasTau <;>
      simp [h1, -Complex.ofReal_exp] <;> ring
  rw [e]
  simp only [sumHalf_add]
  cases g.rho <;> cases g.cb <;> cases g.tau <;> simp [sumHalf_zero]

/-- Forces as sums of changes of the structure factor. -/
theorem force_sum (sp : Local) (S : Box.Size) (GGT : Mat ℝ) (g : Grads) (x u : V3 ℝ) :
    Box.sumHalf S (fun i => conj (gradSG sp S GGT g i) * dsg (iGof S i) x u) = -∑ k, localForce sp S GGT g x k * u k := by
  have e : (fun i => conj (gradSG sp S GGT g i) * dsg (iGof S i) x u) = fun i => ∑ k, (u k : ℂ) * gradAtpos S (gradSG sp S GGT g) x k i := by
    funext i
    simp only [gradAtpos, dsg, Fin.sum_univ_three, dot]
    have h1 : (⟨0, -2 * π * (toR (iGof S i) 0 * u 0 + toR (iGof S i) 1 * u 1 + toR (iGof S i) 2 * u 2)⟩ : ℂ)
        = (u 0 * toR (iGof S i) 0 + u 1 * toR (iGof S i) 1 + u 2 * toR (iGof S i) 2 : ℝ) * (⟨0, -2 * π⟩ : ℂ) := by
      apply Complex.ext
      · simp
      · simp; ring
    rw [h1]
    push_cast
    ring
  rw [e, sumHalf_sum]
  simp only [sumHalf_smul, localForce, ← Finset.sum_neg_distrib]
  exact Finset.sum_congr rfl fun k _ => by ring

theorem update_noFields (sp : Local) (S : Box.Size) (GGT : Mat ℝ) (invVol : ℝ) {n : ℕ} (pos : Fin n → V3 ℝ) :
    updateLocal sp S GGT invVol pos noFields = fieldsOf sp S GGT fun i => sg pos (iGof S i) * (invVol : ℂ) := by
  simp only [updateLocal, fieldsOf, noFields, Pi.zero_apply, zero_add]
  congr 1

/-- Change of the length of a reciprocal vector with strain. -/
theorem len_deriv (R : Mat ℝ) (hR : det R ≠ 0) (e : Mat ℝ) (v : V3 ℝ) (h0 : gsq (Basis.GGT R) v ≠ 0) :
    HasDerivAt (fun t => sqrt (gsq (Basis.GGT (strained R e t)) v)) (-contract (outer (wave R v) (wave R v)) e * (1 / sqrt (gsq (Basis.GGT R) v))) 0 := by
  have h := (CoulK.gsq_deriv R hR e v).sqrt (by rw [Ewald.strained_zero]; exact h0)
  refine h.congr_deriv ?_
  rw [Ewald.strained_zero]
  have : sqrt (gsq (Basis.GGT R) v) ≠ 0 := fun hz => h0 (by
    have := mul_self_sqrt (CoulK.gsq_nonneg R v)
    rw [hz] at this; rw [← this]; ring)
  field_simp

open Classical in
theorem gradSG_deriv (sp : Local) (hsp : sp.OK) (S : Box.Size) (R : Mat ℝ) (hR : det R ≠ 0) (e : Mat ℝ) (g : Grads) (i : Int) :
    HasDerivAt (fun t => gradSG sp S (Basis.GGT (strained R e t)) g i)
      (gradRadial sp S (Basis.GGT R) g i * ((-contract (outer (wave R (toR (iGof S i))) (wave R (toR (iGof S i)))) e
        * (if gsq (Basis.GGT R) (toR (iGof S i)) ≠ 0 then 1 / sqrt (gsq (Basis.GGT R) (toR (iGof S i))) else 0) : ℝ) : ℂ)) 0 := by
  generalize hv : toR (iGof S i) = v
  by_cases h0 : gsq (Basis.GGT R) v = 0
  · have hz : v = 0 := (CoulK.gsq_zero_iff R hR v).1 h0
    have hg : ∀ t, gsq (Basis.GGT (strained R e t)) v = 0 := fun t => by rw [hz]; simp [gsq, metricLengthSq]
    have e1 : (fun t => gradSG sp S (Basis.GGT (strained R e t)) g i) = fun _ => gradSG sp S (Basis.GGT R) g i := by
      funext t
      simp only [gradSG, hv, hg t, h0]
    rw [e1]
    simp only [h0, ne_eq, not_true, if_false, mul_zero, Complex.ofReal_zero]
    exact hasDerivAt_const _ _
  · have hl := len_deriv R hR e v h0
    have hq := CoulK.gsq_deriv R hR e v
    have hpos : sqrt (gsq (Basis.GGT R) v) ≠ 0 := fun hz => h0 (by
      have := mul_self_sqrt (CoulK.gsq_nonneg R v)
      rw [hz] at this; rw [← this]; ring)
    have rad : ∀ f f' : ℝ → ℝ, (∀ x, x ≠ 0 → HasDerivAt f (f' x) x) → HasDerivAt (fun t => ((f (sqrt (gsq (Basis.GGT (strained R e t)) v)) : ℝ) : ℂ))
        ((f' (sqrt (gsq (Basis.GGT R) v)) : ℂ) * ((-contract (outer (wave R v) (wave R v)) e * (1 / sqrt (gsq (Basis.GGT R) v)) : ℝ) : ℂ)) 0 := by
      intro f f' hf
      have h1 : HasDerivAt f (f' (sqrt (gsq (Basis.GGT R) v))) (sqrt (gsq (Basis.GGT (strained R e 0)) v)) := by
        rw [Ewald.strained_zero]; exact hf _ hpos
      have := ofReal_deriv (h1.comp 0 hl)
      rw [Complex.ofReal_mul] at this
      exact this
    have gau : HasDerivAt (fun t => ((exp (-0.5 * gsq (Basis.GGT (strained R e t)) v * sp.wcb ^ 2) : ℝ) : ℂ))
        ((exp (-0.5 * gsq (Basis.GGT R) v * sp.wcb ^ 2) : ℂ) * ((-(sp.wcb ^ 2) * sqrt (gsq (Basis.GGT R) v) : ℝ) : ℂ)
          * ((-contract (outer (wave R v) (wave R v)) e * (1 / sqrt (gsq (Basis.GGT R) v)) : ℝ) : ℂ)) 0 := by
      have h1 := ofReal_deriv ((hq.const_mul (-0.5)).mul_const (sp.wcb ^ 2)).exp
      refine h1.congr_deriv ?_
      rw [Ewald.strained_zero, ← Complex.ofReal_mul, ← Complex.ofReal_mul]
      congr 1
      field_simp
      ring
    have e1 : (fun t => gradSG sp S (Basis.GGT (strained R e t)) g i) = fun t => g.V i * ((sp.Vloc (sqrt (gsq (Basis.GGT (strained R e t)) v)) : ℝ) : ℂ)
        + (match g.rho with | some r => r i * (-(sp.Z : ℂ)) | none => 0)
        + (match g.cb with | some r => if sp.Zcb ≠ 0 then r i * (sp.Zcb : ℂ) else 0 | none => 0) * ((exp (-0.5 * gsq (Basis.GGT (strained R e t)) v * sp.wcb ^ 2) : ℝ) : ℂ)
        + (if sp.hasCore then g.nc i else 0) * ((sp.nCore (sqrt (gsq (Basis.GGT (strained R e t)) v)) : ℝ) : ℂ)
        + (match g.tau with | some r => if sp.hasTau then r i else 0 | none => 0) * ((sp.tauCore (sqrt (gsq (Basis.GGT (strained R e t)) v)) : ℝ) : ℂ) := by
      funext t
      simp only [gradSG, hv]
      cases g.rho <;> cases g.cb <;> cases g.tau <;> by_cases h1 : sp.Zcb = 0 <;> cases sp.hasCore <;> cases sp.hasTau <;> simp [h1]
    rw [e1]
    have h1 := (rad _ _ hsp.V).const_mul (g.V i)
    have h2 := gau.const_mul (match g.cb with | some r => if sp.Zcb ≠ 0 then r i * (sp.Zcb : ℂ) else 0 | none => 0)
    have h3 := (rad _ _ hsp.core).const_mul (if sp.hasCore then g.nc i else 0)
    have h4 := (rad _ _ hsp.tau).const_mul (match g.tau with | some r => if sp.hasTau then r i else 0 | none => 0)
    refine ((((h1.add_const _).add h2).add h3).add h4).congr_deriv ?_
    simp only [gradRadial, hv, if_pos (show gsq (Basis.GGT R) v ≠ 0 from h0)]
    generalize ((-contract (outer (wave R v) (wave R v)) e * (1 / sqrt (gsq (Basis.GGT R) v)) : ℝ) : ℂ) = z
    cases g.cb <;> cases g.tau <;> by_cases h1 : sp.Zcb = 0 <;> cases sp.hasCore <;> cases sp.hasTau <;> simp [h1] <;> ring

theorem sumHalf_weights (S : Box.Size) (hS : S.Pos) (h2 : S.s2 = 1 ∨ S.s2 % 2 = 0) (X Y : Box.Arr) :
    Box.sumHalf S (fun i => conj (X i) * Y i) = ∑ i ∈ Finset.range (Box.nG S), halfWeight S (Box.hStart S i) * (conj (X i) * Y i).re := by
  rw [← dotHalf_sumHalf, (ExCorr.C23_real_partial S hS h2).1 X Y]
  rfl

end
end Jdftx.Psp
