import Verif.Lemmas.FluidFex

/-!
# Lemmas for C93: equations of state and quadratic functionals
-/
namespace Jdftx.Fluid
open Box ExCorr Cavity Filter Topology
open scoped ComplexConjugate
noncomputable section

/-! ### At one point -/

/-- The equation of state returns its derivative. -/
def EosReg (e : ℝ → Option (ℝ × ℝ)) (x : ℝ) : Prop := HasDerivO (fun s => (e s).map Prod.fst) (((e x).map Prod.snd).getD 0) x

theorem getAhs_deriv {T Vhs N : ℝ} (h : Vhs * N < 1) : HasDerivAt (fun N => T * (1 / (1 - Vhs * N) * (1 / (1 - Vhs * N))) * (Vhs * N) * (4 - 3 * (Vhs * N)))
    (T * Vhs * (1 / (1 - Vhs * N) * (1 / (1 - Vhs * N)) * (1 / (1 - Vhs * N))) * 2 * (2 - Vhs * N)) N := by
  have h0 : 1 - Vhs * N ≠ 0 := by linarith
  have i : HasDerivAt (fun N => Vhs * N) Vhs N := by simpa using (hasDerivAt_id N).const_mul Vhs
  have d := (hasDerivAt_const N (1 : ℝ)).div (i.const_sub 1) h0
  have := (((d.mul d).const_mul T).mul i).mul ((i.const_mul 3).const_sub 4)
  refine this.congr_deriv ?_
  simp only [Pi.mul_apply, Pi.div_apply]
  generalize Vhs * N = y at h0
  field_simp
  ring

theorem rpow_mul_deriv (a : ℝ) {x : ℝ} (hx : 0 < x) : HasDerivAt (fun x : ℝ => x ^ a * x) ((a + 1) * x ^ a) x := by
  have := (Real.hasDerivAt_rpow_const (x := x) (p := a) (Or.inl hx.ne')).mul (hasDerivAt_id x)
  refine this.congr_deriv ?_
  rw [Real.rpow_sub_one hx.ne']
  simp only [id_eq]
  field_simp

/-- The denominator of the vapor pressure correction. -/
def vpDen (x : ℝ) : ℝ := 1.917 * (1 + 1.917 * x * (1 + 1.917 * x)) + x * 26.01 * x ^ (3.24 - 1 : ℝ)

theorem vpDen_pos {x : ℝ} (hx : 0 < x) : 0 < vpDen x := by
  have := Real.rpow_pos_of_pos hx (3.24 - 1 : ℝ)
  unfold vpDen
  positivity

theorem vpDen_deriv {x : ℝ} (hx : 0 < x) : HasDerivAt vpDen (1.917 * 1.917 * (1 + 1.917 * x * 2) + 3.24 * 26.01 * x ^ (3.24 - 1 : ℝ)) x := by
  have i : HasDerivAt (fun x : ℝ => 1.917 * x) 1.917 x := by simpa using (hasDerivAt_id x).const_mul (1.917 : ℝ)
  have a := ((i.mul (i.const_add 1)).const_add 1).const_mul (1.917 : ℝ)
  have b := (rpow_mul_deriv (3.24 - 1) hx).const_mul (26.01 : ℝ)
  refine ((a.add b).congr_of_eventuallyEq (Eventually.of_forall fun y => ?_)).congr_deriv ?_
  · simp only [vpDen, Pi.add_apply, Pi.mul_apply]; ring
  · generalize x ^ (3.24 - 1 : ℝ) = r
    norm_num; ring

theorem vpPhi_deriv {nc n : ℝ} (hc : 0 < nc) (hn : 0 < n) : HasDerivAt (fun n => (vpPhi nc n).1) (vpPhi nc n).2 n := by
  have hx : 0 < n / nc := div_pos hn hc
  have dx : HasDerivAt (fun n => n / nc) (1 / nc) n := (hasDerivAt_id n).div_const nc
  have dden := (vpDen_deriv hx).comp n dx
  have hd := vpDen_pos hx
  have d1 := (hasDerivAt_const n (1 : ℝ)).div dden hd.ne'
  have e1 := (((rpow_mul_deriv 5.7 hx).comp n dx).const_mul (-0.0610 : ℝ)).exp
  have := (e1.const_mul (-nc)).mul d1
  refine (this.congr_of_eventuallyEq (Eventually.of_forall fun y => ?_)).congr_deriv ?_
  · simp only [vpPhi, Pi.mul_apply, Pi.div_apply, Function.comp_apply, vpDen]
    congr 3; ring
  · simp only [vpPhi, Pi.div_apply, Function.comp_apply]
    have e : 1.917 * (1 + 1.917 * (n / nc) * (1 + 1.917 * (n / nc))) + n / nc * 26.01 * (n / nc) ^ (3.24 - 1 : ℝ) = vpDen (n / nc) := rfl
    rw [e]
    have ee : -0.0610 * (n / nc) ^ (5.7 : ℝ) * (n / nc) = -0.0610 * ((n / nc) ^ (5.7 : ℝ) * (n / nc)) := by ring
    rw [ee]
    generalize Real.exp (-0.0610 * ((n / nc) ^ (5.7 : ℝ) * (n / nc))) = E
    generalize (n / nc) ^ (3.24 - 1 : ℝ) = r
    generalize (n / nc) ^ (5.7 : ℝ) = q
    generalize vpDen (n / nc) = D at hd
    have hD := hd.ne'
    have hc' := hc.ne'
    norm_num
    field_simp

theorem ahb_deriv (p : JA) (N : ℝ) (hd : p.dnHB ≠ 0) : HasDerivAt (fun N => (ahb p N).1) (ahb p N).2 N := by
  have i : HasDerivAt (fun N => (N - p.nHB) / p.dnHB) (1 / p.dnHB) N := ((hasDerivAt_id N).sub_const _).div_const _
  have g := (i.pow 2).exp
  have hpos : 0 < C1 + Real.exp (((N - p.nHB) / p.dnHB) ^ 2) := by
    have := Real.exp_pos (((N - p.nHB) / p.dnHB) ^ 2)
    have : (0 : ℝ) < C1 := by norm_num [C1]
    positivity
  have := (hasDerivAt_const N p.prefacHB).div (g.const_add C1) hpos.ne'
  refine this.congr_deriv ?_
  simp only [ahb, Pi.pow_apply]
  have h := hpos.ne'
  generalize C1 + Real.exp (((N - p.nHB) / p.dnHB) ^ 2) = D at h
  norm_num
  field_simp

theorem avwJA_deriv (p : JA) {N : ℝ} (hb : p.b ≠ 0) (hc : 0 < p.nc) (hN : 0 < N) (hG : lambdaJA * p.b * N < 1) : EosReg (avwJA p) N := by
  have h0 : ¬ 1 - lambdaJA * p.b * N ≤ 0 := by linarith
  have i : HasDerivAt (fun N => lambdaJA * p.b * N) (lambdaJA * p.b) N := by simpa using (hasDerivAt_id N).const_mul (lambdaJA * p.b)
  refine ⟨fun N => p.prefacVW1 * Real.log (1 - lambdaJA * p.b * N) + (p.VPzi * (vpPhi p.nc N).1 - N) * p.prefacVW2, ?_, ?_⟩
  · filter_upwards [i.continuousAt.eventually (Iio_mem_nhds hG)] with s hs
    have hs' : lambdaJA * p.b * s < 1 := hs
    unfold avwJA
    simp only
    rw [if_neg (by linarith)]; rfl
  · have a := ((i.const_sub 1).log (by linarith)).const_mul p.prefacVW1
    have b := ((((vpPhi_deriv hc hN).const_mul p.VPzi).sub (hasDerivAt_id N)).mul_const p.prefacVW2)
    refine (a.add b).congr_deriv ?_
    unfold avwJA
    simp only [if_neg h0, Option.map_some, Option.getD_some]
    congr 1
    unfold JA.prefacVW1
    have hl : lambdaJA ≠ 0 := by norm_num [lambdaJA]
    have h1 : 1 - lambdaJA * p.b * N ≠ 0 := by linarith
    generalize 1 - lambdaJA * p.b * N = G at h1
    field_simp

theorem avwTM_deriv (p : TM) {N : ℝ} (hG : p.lambda * p.b * N < 1) : EosReg (avwTM p) N := by
  have h0 : ¬ 1 - p.lambda * p.b * N ≤ 0 := by linarith
  have i : HasDerivAt (fun N => p.lambda * p.b * N) (p.lambda * p.b) N := by simpa using (hasDerivAt_id N).const_mul (p.lambda * p.b)
  refine ⟨fun N => N * p.prefacQuad + p.prefacPole * (-Real.log (1 - p.lambda * p.b * N)), ?_, ?_⟩
  · filter_upwards [i.continuousAt.eventually (Iio_mem_nhds hG)] with s hs
    have hs' : p.lambda * p.b * s < 1 := hs
    unfold avwTM
    simp only
    rw [if_neg (by linarith)]; rfl
  · have a := ((i.const_sub 1).log (by linarith)).neg.const_mul p.prefacPole
    refine (((hasDerivAt_id N).mul_const p.prefacQuad).add a).congr_deriv ?_
    unfold avwTM
    simp only [if_neg h0, Option.map_some, Option.getD_some]
    ring

theorem avapTM_deriv (p : TM) (N : ℝ) : HasDerivAt (fun N => (avapTM p N).1) (avapTM p N).2 N := by
  have i : HasDerivAt (fun N => Real.sqrt 1.8 * p.b * p.b * N * N) (Real.sqrt 1.8 * p.b * p.b * N * 2) N := by
    have := ((hasDerivAt_id N).const_mul (Real.sqrt 1.8 * p.b * p.b)).mul (hasDerivAt_id N)
    refine this.congr_deriv ?_
    simp; ring
  refine (i.arctan.const_mul p.prefacVap).congr_deriv ?_
  simp only [avapTM]
  have : (0 : ℝ) < 1 + (Real.sqrt 1.8 * p.b * p.b * N * N) ^ 2 := by positivity
  rw [← sq]
  field_simp

/-- Sum of two equations of state, minus a third. -/
theorem EosReg.combine {e : ℝ → Option (ℝ × ℝ)} {a v f : ℝ → Option (ℝ × ℝ)} {x : ℝ} (ha : EosReg a x) (hv : EosReg v x) (hf : EosReg f x)
    (he : ∀ᶠ s in 𝓝 x, e s = (do let p ← a s; let q ← v s; let r ← f s; pure (p.1 + q.1 - r.1, p.2 + q.2 - r.2))) : EosReg e x := by
  obtain ⟨A, hA, dA⟩ := ha
  obtain ⟨V, hV, dV⟩ := hv
  obtain ⟨F, hF, dF⟩ := hf
  refine ⟨fun s => A s + V s - F s, ?_, ?_⟩
  · filter_upwards [hA, hV, hF, he] with s h1 h2 h3 h4
    rw [h4]
    cases h : a s with
    | none => rw [h] at h1; simp at h1
    | some p =>
      cases h' : v s with
      | none => rw [h'] at h2; simp at h2
      | some q =>
        cases h'' : f s with
        | none => rw [h''] at h3; simp at h3
        | some r =>
          rw [h] at h1; rw [h'] at h2; rw [h''] at h3
          simp at h1 h2 h3
          simp [← h1, ← h2, ← h3]
  · refine ((dA.add dV).sub dF).congr_deriv ?_
    have h4 := he.self_of_nhds
    have h1 : (a x).map Prod.fst = _ := hA.self_of_nhds
    have h2 : (v x).map Prod.fst = _ := hV.self_of_nhds
    have h3 : (f x).map Prod.fst = _ := hF.self_of_nhds
    rw [h4]
    cases h : a x with
    | none => rw [h] at h1; simp at h1
    | some p =>
      cases h' : v x with
      | none => rw [h'] at h2; simp at h2
      | some q =>
        cases h'' : f x with
        | none => rw [h''] at h3; simp at h3
        | some r => simp

theorem EosReg.total {f : ℝ → ℝ × ℝ} {x : ℝ} (h : HasDerivAt (fun s => (f s).1) (f x).2 x) : EosReg (fun s => some (f s)) x :=
  ⟨fun s => (f s).1, Eventually.of_forall fun _ => rfl, h⟩

theorem getAhs_reg {T Vhs N : ℝ} (h : Vhs * N < 1) : EosReg (getAhs T Vhs) N := by
  have i : HasDerivAt (fun N => Vhs * N) Vhs N := by simpa using (hasDerivAt_id N).const_mul Vhs
  refine ⟨fun N => T * (1 / (1 - Vhs * N) * (1 / (1 - Vhs * N))) * (Vhs * N) * (4 - 3 * (Vhs * N)), ?_, ?_⟩
  · filter_upwards [i.continuousAt.eventually (Iio_mem_nhds h)] with s hs
    unfold getAhs
    simp only [ge_iff_le]
    rw [if_neg (not_le.2 (show Vhs * s < 1 from hs))]; rfl
  · refine (getAhs_deriv (T := T) h).congr_deriv ?_
    unfold getAhs
    simp only [if_neg (not_le.2 h), ge_iff_le, Option.map_some, Option.getD_some]

theorem eosJA_reg (p : JA) (Vhs : ℝ) {N : ℝ} (hb : p.b ≠ 0) (hc : 0 < p.nc) (hd : p.dnHB ≠ 0) (hN : 0 < N) (hG : lambdaJA * p.b * N < 1) (hV : Vhs * N < 1) :
    EosReg (eosJA p Vhs) N := by
  refine EosReg.combine (EosReg.total (ahb_deriv p N hd)) (avwJA_deriv p hb hc hN hG) (getAhs_reg (T := p.T) hV) ?_
  filter_upwards [Ioi_mem_nhds hN] with s hs
  unfold eosJA
  rw [if_neg (not_lt.2 (le_of_lt hs))]; rfl

theorem eosTM_reg (p : TM) (Vhs : ℝ) {N : ℝ} (hN : 0 < N) (hG : p.lambda * p.b * N < 1) (hV : Vhs * N < 1) : EosReg (eosTM p Vhs) N := by
  refine EosReg.combine (avwTM_deriv p hG) (EosReg.total (avapTM_deriv p N)) (getAhs_reg (T := p.T) hV) ?_
  filter_upwards [Ioi_mem_nhds hN] with s hs
  unfold eosTM
  rw [if_neg (not_lt.2 (le_of_lt hs))]; rfl

theorem eos_neg_reg {e : ℝ → Option (ℝ × ℝ)} (he : ∀ N < 0, e N = some (0, 0)) {N : ℝ} (hN : N < 0) : EosReg e N := by
  refine ⟨fun _ => 0, ?_, ?_⟩
  · filter_upwards [Iio_mem_nhds hN] with s hs
    rw [he s hs]; rfl
  · rw [he N hN]; exact hasDerivAt_const _ _

/-! ### On the grid -/

variable (g : Grid)

theorem HasDerivO.comp {f : ℝ → Option ℝ} {f' : ℝ} {c : ℝ → ℝ} {c' t : ℝ} (h : HasDerivO f f' (c t)) (hc : HasDerivAt c c' t) : HasDerivO (fun s => f (c s)) (f' * c') t := by
  obtain ⟨F, hF, hd⟩ := h
  exact ⟨fun s => F (c s), hc.continuousAt.eventually hF, hd.comp t hc⟩

theorem HasDerivO.mulFun {f : ℝ → Option ℝ} {f' : ℝ} {c : ℝ → ℝ} {c' t : ℝ} (h : HasDerivO f f' t) (hc : HasDerivAt c c' t) :
    HasDerivO (fun s => (f s).map (c s * ·)) (c' * (f t).getD 0 + c t * f') t := by
  obtain ⟨F, hF, hd⟩ := h
  refine ⟨fun s => c s * F s, ?_, ?_⟩
  · filter_upwards [hF] with s hs; rw [hs]; rfl
  · rw [hF.self_of_nhds]; exact hc.mul hd

variable {n : Nat} (sites : Fin n → Site) (w : Nat → ℝ) (e : ℝ → Option (ℝ × ℝ))

/-- Densities, changed. -/
def smove (N dN : Fin n → Arr) (t : ℝ) : Fin n → Arr := fun s i => N s i + (t : ℂ) * dN s i

theorem navg_inner (X : Arr) (N : Fin n → Arr) : innerG g X (navgTilde sites N) = ∑ s, innerG g X (N s) * ((sites s).alpha / alphaTot sites) := by
  have : navgTilde sites N = fun i => ∑ s, wMul (fun _ => (sites s).alpha / alphaTot sites) (N s) i := by
    funext i
    simp only [navgTilde, wMul, Finset.mul_sum]
    exact Finset.sum_congr rfl fun s _ => by push_cast; ring
  rw [this, innerG_sum_right]
  refine Finset.sum_congr rfl fun s _ => ?_
  rw [innerG_wMul]
  have e : (wMul (fun _ => (sites s).alpha / alphaTot sites) X) = fun i => (((sites s).alpha / alphaTot sites : ℝ) : ℂ) * X i := by
    funext i; simp only [wMul]; ring
  rw [e, innerG_smul_left]; ring

theorem eosE_curve {M : ℝ → Fin n → Arr} {dN : Fin n → Arr} {t : ℝ} (hM : ∀ s, ADeriv g (fun u => M u s) (dN s) t) (hr : ∀ j < nr g.S, EosReg e (eosNbar g sites w (M t) j)) :
    HasDerivO (fun t => eosE g sites w e (M t)) (g.dV * ∑ s, innerG g (eosGrad g sites w e (M t) s) (dN s)) t := by
  have hav : ADeriv g (fun u => navgTilde sites (M u)) (navgTilde sites dN) t :=
    (ADeriv.sum g Finset.univ fun s => (hM s).smul g ((sites s).alpha : ℂ)).smul g _
  have hbar : ∀ j, HasDerivAt (fun t => eosNbar g sites w (M t) j) (eosNbar g sites w dN j) t := (hav.wMul g w).fftI g
  have havg : ∀ j, HasDerivAt (fun t => eosNavg g sites (M t) j) (eosNavg g sites dN j) t := hav.fftI g
  unfold eosE
  have hd : ∀ j < nr g.S, HasDerivO (fun t => (e (eosNbar g sites w (M t) j)).map fun a => eosNavg g sites (M t) j * a.1)
      (eosNavg g sites dN j * (((e (eosNbar g sites w (M t) j)).map Prod.fst).getD 0) + eosNavg g sites (M t) j * ((((e (eosNbar g sites w (M t) j)).map Prod.snd).getD 0) * eosNbar g sites w dN j)) t := by
    intro j hj
    have h3 := (HasDerivO.comp (f := fun s => (e s).map Prod.fst) (c := fun t => eosNbar g sites w (M t) j) (hr j hj) (hbar j)).mulFun (havg j)
    simp only [Option.map_map] at h3
    exact h3
  have h := HasDerivO.sumO (n := nr g.S) (f := fun t j => (e (eosNbar g sites w (M t) j)).map fun a => eosNavg g sites (M t) j * a.1) hd
  clear hd hav hbar havg
  generalize M t = N at *
  refine (h.mapMul g.dV).congr_deriv ?_
  congr 1
  set A : Field := fun j => ((e (eosNbar g sites w N j)).map Prod.fst).getD 0
  set A' : Field := fun j => ((e (eosNbar g sites w N j)).map Prod.snd).getD 0
  rw [Finset.sum_add_distrib]
  have e1 : ∑ j ∈ Finset.range (nr g.S), eosNavg g sites dN j * A j = ∑ s, innerG g (Idag g.S A) (dN s) * ((sites s).alpha / alphaTot sites) := by
    rw [← navg_inner, ← adj]
    exact Finset.sum_congr rfl fun j _ => by unfold eosNavg; ring
  have e2 : ∑ j ∈ Finset.range (nr g.S), eosNavg g sites N j * (A' j * eosNbar g sites w dN j)
      = ∑ s, innerG g (wMul w (Idag g.S fun j => eosNavg g sites N j * A' j)) (dN s) * ((sites s).alpha / alphaTot sites) := by
    rw [← navg_inner, ← innerG_wMul, ← adj]
    exact Finset.sum_congr rfl fun j _ => by unfold eosNbar; ring
  refine (congrArg₂ (· + ·) e1 e2).trans ?_
  rw [← Finset.sum_add_distrib]
  refine Finset.sum_congr rfl fun s _ => ?_
  have : eosGrad g sites w e N s = fun i => (((sites s).alpha / alphaTot sites : ℝ) : ℂ) * (wMul w (Idag g.S fun j => eosNavg g sites N j * A' j) i + Idag g.S A i) := by
    funext i; unfold eosGrad; simp only; ring
  rw [this, innerG_smul_left, innerG_add_left]; ring

theorem eosE_deriv (N dN : Fin n → Arr) (hr : ∀ j < nr g.S, EosReg e (eosNbar g sites w N j)) :
    HasDerivO (fun t => eosE g sites w e (smove N dN t)) (g.dV * ∑ s, innerG g (eosGrad g sites w e N s) (dN s)) 0 := by
  have z : smove N dN 0 = N := by funext s i; simp [smove]
  have := eosE_curve g sites w e (M := smove N dN) (t := 0) (fun s => ADeriv.line g (N s) (dN s)) (by rwa [z])
  rwa [z] at this

theorem Idag_const (S : Size) (hS : S.Pos) (a : ℝ) : Idag S (fun _ => a) 0 = ((nr S * a : ℝ) : ℂ) := by
  unfold Idag
  simp only [Int.toNat_zero, chi_zero S hS, map_one, mul_one, Finset.sum_const, Finset.card_range, nsmul_eq_mul]
  push_cast; rfl

/-! ### Quadratic functionals -/

theorem kerV_moved (c : ℝ) (w : Nat → ℝ) (N dN : Arr) (t : ℝ) : kerV g c w (fun i => N i + (t : ℂ) * dN i) = fun i => kerV g c w N i + (t : ℂ) * kerV g c w dN i := by
  funext i; simp only [kerV, wMul]; ring

theorem innerG_comm (X Y : Arr) : innerG g X Y = innerG g Y X := by
  refine Finset.sum_congr rfl fun i _ => ?_
  congr 1
  rw [← Complex.conj_re, map_mul, Complex.conj_conj, mul_comm]

theorem innerG_add_right (X Y Y' : Arr) : innerG g X (fun i => Y i + Y' i) = innerG g X Y + innerG g X Y' := by
  rw [innerG_comm, innerG_add_left, innerG_comm, innerG_comm g Y']

theorem innerG_smul_right (c : ℝ) (X Y : Arr) : innerG g X (fun i => (c : ℂ) * Y i) = c * innerG g X Y := by
  rw [innerG_comm, innerG_smul_left, innerG_comm]

theorem kerV_symm (c : ℝ) (w : Nat → ℝ) (X Y : Arr) : innerG g (kerV g c w X) Y = innerG g (kerV g c w Y) X := by
  have e : ∀ X Y, innerG g (kerV g c w X) Y = c * nr g.S * innerG g (wMul w X) Y := fun X Y => innerG_smul_left g _ _ _
  rw [e, e, ← innerG_wMul, innerG_comm]

theorem innerG_deriv {X Y : ℝ → Arr} {X' Y' : Arr} {t : ℝ} (hX : ADeriv g X X' t) (hY : ADeriv g Y Y' t) :
    HasDerivAt (fun s => innerG g (X s) (Y s)) (innerG g X' (Y t) + innerG g (X t) Y') t := by
  unfold innerG
  rw [← Finset.sum_add_distrib]
  refine HasDerivAt.fun_sum fun i hi => ?_
  have hi' := Finset.mem_range.1 hi
  have hc : HasDerivAt (fun s => conj (X s i)) (conj (X' i)) t := (Complex.conjCLE.toContinuousLinearMap.hasFDerivAt.comp_hasDerivAt t (hX i hi'))
  have h := (Complex.reCLM.hasFDerivAt.comp_hasDerivAt t (hc.mul (hY i hi'))).const_mul (weight g.S i)
  refine h.congr_deriv ?_
  simp only [Complex.reCLM_apply, Complex.add_re]
  ring

theorem bilin_deriv (B : ℝ → ℝ) (a b c t : ℝ) (h : ∀ t, B t = a + t * b + t * t * c) (ht : t = 0) : HasDerivAt B b t := by
  have i := hasDerivAt_id t
  have := ((i.mul_const b).const_add a).add ((i.mul i).mul_const c)
  refine (this.congr_of_eventuallyEq (Eventually.of_forall fun s => ?_)).congr_deriv ?_
  · rw [h s]; rfl
  · subst ht; simp

theorem uniform_dot (hS : g.S.Pos) {X Y : Arr} {a b : ℝ} (hX : Uniform g X a) (hY : Uniform g Y b) : innerG g X Y = a * b := by
  unfold innerG
  rw [sum_zero_only (nG_pos _ hS) _ fun i h0 hi => by rw [hX.2 i h0 hi]; simp]
  rw [weight_zero]
  have e1 : X ((0 : Nat) : Int) = (a : ℂ) := hX.1
  have e2 : Y ((0 : Nat) : Int) = (b : ℂ) := hY.1
  rw [e1, e2]; simp

theorem fex_deriv {N : ℝ} (h : N ≠ 0) : HasDerivAt fex (fexDot N) N := by
  rcases lt_or_gt_of_ne h with h | h
  · refine ((hasDerivAt_const N (0 : ℝ)).congr_of_eventuallyEq ?_).congr_deriv ?_
    · filter_upwards [Iio_mem_nhds h] with s hs
      unfold fex; rw [if_pos (show s < 0 from hs)]
    · unfold fexDot; rw [if_pos h]
  · have i := hasDerivAt_id N
    have := (i.mul ((i.mul ((i.mul ((i.mul ((i.mul ((i.mul_const (6.58720860464796e+09 : ℝ)).const_add (-1.27079357385654e+08))).const_add 9.17183837107696e+05)).const_add (-2.59856289573731e+03))).const_add
      8.87857550440045e-04)).const_add (-1.01124264551199e-10))).const_add 3.83929979127276e-18
    refine (this.congr_of_eventuallyEq ?_).congr_deriv ?_
    · filter_upwards [Ioi_mem_nhds h] with s hs
      unfold fex; rw [if_neg (not_lt.2 (le_of_lt hs))]; rfl
    · unfold fexDot; rw [if_neg (not_lt.2 h.le)]
      simp only [Pi.mul_apply, id_eq]
      norm_num
      ring

theorem fitted_deriv {a b : ℝ → ℝ} {a' b' t : ℝ} (ha : HasDerivAt a a' t) (hb : HasDerivAt b b' t) (h0 : a t ≠ 0) (h1 : b t ≠ 0) (h2 : a t + b t ≠ 0) :
    HasDerivAt (fun s => (fitted (a s) (b s)).1) ((fitted (a t) (b t)).2.1 * a' + (fitted (a t) (b t)).2.2 * b') t := by
  have hm := (ha.add hb).const_mul (1 / 3 : ℝ)
  have e1 := ((fex_deriv (N := 1 / 3 * (a t + b t)) (by positivity)).comp t hm).const_mul (27 / 20 : ℝ)
  have e2 := ((fex_deriv h0).comp t ha).const_mul (-19 / 20 : ℝ)
  have e3 := ((fex_deriv (N := b t * 0.5) (mul_ne_zero h1 (by norm_num))).comp t (hb.mul_const 0.5)).const_mul (12 / 20 : ℝ)
  refine ((e1.add e2).add e3).congr_deriv ?_
  simp only [fitted]; ring

end
end Jdftx.Fluid
