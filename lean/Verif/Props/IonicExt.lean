import Verif.Lemmas.IonicExt

/-!
# C104: external potentials on ions
-/
namespace Jdftx.IonExt
noncomputable section
open M3 Real Filter Topology

variable {n : ℕ}

/-- **C104 (Gaussian forces).** Any geometry, lattice, number of atoms: the energy changes by minus the added force times the displacement of an atom, unless that atom is on a face of the
cell around the center. -/
theorem C104_gauss_forces (g : Gauss) (R : Mat ℝ) (atoms : Fin n → Atom) (a : Fin n) (u : V3 ℝ) (h : Inside fun k => (atoms a).pos k - g.center k) :
    HasDerivAt (fun t => gaussEnergy g R (moved atoms a u t)) (-∑ k, ((gaussAtoms g R atoms a).force k - (atoms a).force k) * u k) 0 := by
  have hb : ∀ b ∈ Finset.univ, HasDerivAt (fun t => if (moved atoms a u t b).sp = g.iSpecies then Ecur g R (moved atoms a u t b).pos else 0)
      (if b = a then -∑ k, ((gaussAtoms g R atoms a).force k - (atoms a).force k) * u k else 0) 0 := by
    intro b _
    by_cases hba : b = a
    · subst hba
      have e : ∀ t, (moved atoms b u t b).pos = fun k => (atoms b).pos k + t * u k := fun t => by funext k; simp [moved, Ewald.displace]
      rw [if_pos rfl]
      by_cases hs : (atoms b).sp = g.iSpecies
      · have e2 : ∀ t, (moved atoms b u t b).sp = g.iSpecies := fun _ => hs
        simp only [e2, if_true, e]
        refine (Ecur_pos_deriv g R (atoms b).pos u h).congr_deriv ?_
        simp only [gaussAtoms, hs, if_true, add_sub_cancel_left]
      · have e2 : ∀ t, ¬(moved atoms b u t b).sp = g.iSpecies := fun _ => hs
        simp only [e2, if_false]
        refine (hasDerivAt_const _ _).congr_deriv ?_
        simp [gaussAtoms, hs]
    · have e : ∀ t, moved atoms a u t b = atoms b := fun t => by
        have : Ewald.displace (fun b => (atoms b).pos) a u t b = (atoms b).pos := by funext k; simp [Ewald.displace, hba]
        simp only [moved, this]
      rw [if_neg hba]
      simp only [e]
      exact hasDerivAt_const _ _
  refine (HasDerivAt.fun_sum hb).congr_deriv ?_
  rw [Finset.sum_ite_eq' Finset.univ a, if_pos (Finset.mem_univ a)]

/-- **C104 (Gaussian energy).** Each atom of the species contributes the height times a Gaussian with the given standard deviation of the distance from the center, from the line along the third axis
through it, or from the plane across it; `y` is the position from the center in lattice coordinates, in the cell around the center. -/
theorem C104_gauss_energy (g : Gauss) (R : Mat ℝ) (atoms : Fin n → Atom) (y : Fin n → V3 ℝ)
    (hy : ∀ a k, (∃ m : ℤ, (atoms a).pos k = g.center k + y a k + m) ∧ -1 / 2 ≤ y a k ∧ y a k < 1 / 2) :
    gaussEnergy g R atoms = ∑ a with (atoms a).sp = g.iSpecies, g.U0 * exp (-(fromCenter (mulMV R (y a)) g.geometry) / (2 * g.sigma ^ 2)) := by
  rw [Finset.sum_filter]
  refine Finset.sum_congr rfl fun a _ => ?_
  have hw : wrap g (atoms a).pos = y a := by
    funext k
    obtain ⟨⟨m, hm⟩, h1, h2⟩ := hy a k
    have hf : ⌊0.5 + ((atoms a).pos k - g.center k)⌋ = m := by
      rw [Int.floor_eq_iff, hm]
      constructor <;> norm_num <;> linarith
    simp only [wrap, hf]
    rw [hm]
    ring
  split
  · rw [Ecur, hw]
    congr 2
    have e : mhalf g = -1 / (2 * g.sigma ^ 2) := by
      unfold mhalf
      rw [show g.sigma * g.sigma = g.sigma ^ 2 by ring, div_mul_eq_div_div]
      norm_num
    have e2 : rSq g (mulMV R (y a)) = fromCenter (mulMV R (y a)) g.geometry := by
      unfold rSq fromCenter
      cases g.geometry <;> simp only [dot] <;> ring
    rw [e, e2]
    ring
  · rfl

/-- **C104 (Gaussian stress).** The energy changes under every symmetric strain by the contraction with what is added to the lattice gradient; for spherical potentials under every strain. -/
theorem C104_gauss_stress (g : Gauss) (R : Mat ℝ) (atoms : Fin n → Atom) (S e : Mat ℝ) (he : g.geometry = .spherical ∨ ∀ i j, e i j = e j i) :
    HasDerivAt (fun t => gaussEnergy g (Ewald.strained R e t) atoms) (Ewald.contract (fun i j => gaussStress g R atoms S i j - S i j) e) 0 := by
  have hb : ∀ b ∈ Finset.univ, HasDerivAt (fun t => if (atoms b).sp = g.iSpecies then Ecur g (Ewald.strained R e t) (atoms b).pos else 0)
      (if (atoms b).sp = g.iSpecies then -dot (cartForce g R (atoms b).pos) (mulMV e (mulMV R (wrap g (atoms b).pos))) else 0) 0 := by
    intro b _
    split
    · exact Ecur_strain_deriv g R e (atoms b).pos
    · exact hasDerivAt_const _ _
  refine (HasDerivAt.fun_sum hb).congr_deriv ?_
  unfold Ewald.contract
  simp only [gaussStress, gaussRRT, add_sub_cancel_left, ← Finset.sum_add_distrib, Finset.mul_sum, Finset.sum_mul]
  have e1 : ∀ (f : Fin 3 → Fin 3 → Fin n → ℝ), ∑ i, ∑ j, ∑ a, f i j a = ∑ a, ∑ i, ∑ j, f i j a := by
    intro f
    rw [show (∑ a, ∑ i, ∑ j, f i j a) = ∑ i, ∑ a, ∑ j, f i j a from Finset.sum_comm]
    exact Finset.sum_congr rfl fun i _ => Finset.sum_comm
  rw [e1]
  refine Finset.sum_congr rfl fun b _ => ?_
  split
  · generalize hr : mulMV R (wrap g (atoms b).pos) = r
    rcases he with he | he
    · have hf : ∀ k, cartForce g R (atoms b).pos k = (-Ecur g R (atoms b).pos * mhalf g) * (2 * r k) := fun k => by
        simp only [cartForce, hr, rSqr, he]
      generalize (-Ecur g R (atoms b).pos * mhalf g) = q at hf
      simp only [hf, Fin.sum_univ_three, dot, mulMV]
      ring
    · have h01 := he 0 1
      have h02 := he 0 2
      have h12 := he 1 2
      simp only [Fin.sum_univ_three, dot, mulMV, h01, h02, h12]
      ring
  · simp

/-- **C104 (Gaussian periodicity).** The energy does not depend on which periodic image of an atom is given. -/
theorem C104_gauss_periodic (g : Gauss) (R : Mat ℝ) (atoms : Fin n → Atom) (m : Fin n → Fin 3 → ℤ) :
    gaussEnergy g R (fun a => { atoms a with pos := fun k => (atoms a).pos k + m a k }) = gaussEnergy g R atoms := by
  unfold gaussEnergy
  refine Finset.sum_congr rfl fun a _ => ?_
  have : wrap g (fun k => (atoms a).pos k + m a k) = wrap g (atoms a).pos := by
    funext k
    have e : 0.5 + ((atoms a).pos k + m a k - g.center k) = (0.5 + ((atoms a).pos k - g.center k)) + (m a k : ℤ) := by ring
    simp only [wrap, e, Int.floor_add_intCast]
    push_cast; ring
  simp only [Ecur, this]

/-- One atom and a planar potential; two atoms and a bond. -/
def exAtoms : Fin 2 → Atom := fun a => if a = 0 then ⟨vec 0.1 0.2 0.3, fun _ => 0, 4⟩ else ⟨vec 0.4 0.6 0.3, fun _ => 0, 4⟩
def exGauss : Gauss := ⟨4, 0.1, 2, .planar, fun _ => 0⟩
def exR : Mat ℝ := diag 10 10 10

theorem ex_inside (x : V3 ℝ) (h : ∀ k, -1 / 2 < x k ∧ x k < 1 / 2) : Inside x := by
  intro k m hm
  have := h k
  have h1 : (m : ℝ) < 0 := by linarith
  have h2 : (-1 : ℝ) < m := by linarith
  have h3 : m < 0 := by exact_mod_cast h1
  have h4 : -1 < m := by exact_mod_cast h2
  omega

example (u : V3 ℝ) := C104_gauss_forces exGauss exR exAtoms 0 u (ex_inside _ fun k => by fin_cases k <;> simp [exAtoms, exGauss, vec] <;> norm_num)
example := C104_gauss_energy exGauss exR exAtoms (fun a => if a = 0 then vec 0.1 0.2 0.3 else vec 0.4 (-0.4) 0.3) (by
  intro a k
  refine ⟨⟨if a = 1 ∧ k = 1 then 1 else 0, ?_⟩, ?_, ?_⟩ <;> fin_cases a <;> fin_cases k <;> simp [exAtoms, exGauss, vec] <;> norm_num)
example (e : Mat ℝ) (he : ∀ i j, e i j = e j i) := C104_gauss_stress exGauss exR exAtoms 0 e (Or.inr he)

/-- **C104 (choice of atoms).** `selectAtom` returns the atom of the species that has the given number of atoms of the species before it, and stops the program exactly when there are not
that many. -/
theorem C104_select (atoms : Fin n → Atom) (iSp at' : ℕ) : (∀ i, selectAtom atoms iSp at' = .ok i ↔ (atoms i).sp = iSp ∧ countBefore atoms iSp i = at') ∧
    (selectAtom atoms iSp at' = .error .die ↔ countBefore atoms iSp n ≤ at') := by
  constructor
  · intro i
    rw [selectAtom, selectFrom_ok]
    constructor
    · rintro ⟨l1, l2, h1, h2, h3⟩
      refine ⟨h2, ?_⟩
      have hlen : l1.length < n := by
        have := congrArg List.length h1
        simp at this; omega
      have hi : (i : ℕ) = l1.length := by
        have h4 : (List.finRange n)[l1.length]? = some i := by rw [h1]; simp
        rw [List.getElem?_eq_some_iff] at h4
        obtain ⟨h5, h6⟩ := h4
        rw [List.getElem_finRange] at h6
        rw [← h6]; rfl
      rw [countBefore, hi, h1, List.take_left, ← h3, zero_add]
    · rintro ⟨h1, h2⟩
      refine ⟨(List.finRange n).take i, (List.finRange n).drop (i + 1), ?_, h1, by rw [zero_add]; exact h2⟩
      have h3 : (List.finRange n).drop i = i :: (List.finRange n).drop (i + 1) := by
        rw [List.drop_eq_getElem_cons (by simp)]
        simp
      rw [← h3, List.take_append_drop]
  · rw [selectAtom, selectFrom_die _ _ _ _ 0 (Nat.zero_le _), zero_add, countBefore, List.take_of_length_le (by simp)]

example : selectAtom exAtoms 4 1 = .ok 1 := by
  rw [(C104_select exAtoms 4 1).1]
  simp [exAtoms, countBefore, List.finRange_succ]

/-- The function that the code evaluates. -/
def interp (res : ℝ) (pot : List ℝ) (x : ℝ) : ℝ := pot.getD ⌊x / res⌋.toNat 0 * (1 - (x / res - ⌊x / res⌋)) + pot.getD (⌊x / res⌋.toNat + 1) 0 * (x / res - ⌊x / res⌋)

theorem interp_at (res : ℝ) (hr : 0 < res) (pot : List ℝ) (i : ℕ) (t : ℝ) (h0 : 0 ≤ t) (h1 : t < 1) : interp res pot ((i + t) * res) = pot.getD i 0 * (1 - t) + pot.getD (i + 1) 0 * t := by
  have e : (i + t) * res / res = i + t := by field_simp
  have hf : ⌊(i : ℝ) + t⌋ = (i : ℤ) := Int.floor_eq_iff.2 ⟨by push_cast; linarith, by push_cast; linarith⟩
  simp only [interp, e, hf, Int.toNat_natCast, Int.cast_natCast, add_sub_cancel_left]

theorem interp_grid (res : ℝ) (hr : 0 < res) (pot : List ℝ) (i : ℕ) : interp res pot (i * res) = pot.getD i 0 := by
  have := interp_at res hr pot i 0 le_rfl one_pos
  simpa using this

theorem interp_linear (res : ℝ) (hr : 0 < res) (pot : List ℝ) : PiecewiseLinear res pot (interp res pot) where
  value := fun i h => by rw [interp_grid res hr]; simp [List.getD, h]
  between := fun i h t h0 h1 => by
    have e : ((i : ℝ) + 1) = ((i + 1 : ℕ) : ℝ) := by push_cast; rfl
    rcases lt_or_eq_of_le h1 with h1 | rfl
    · rw [interp_at res hr pot i t h0 h1, e, interp_grid res hr, interp_grid res hr]; ring
    · rw [e, interp_grid res hr]; ring

theorem interp_deriv (res : ℝ) (hr : 0 < res) (pot : List ℝ) (x : ℝ) (h : ∀ m : ℤ, x ≠ m * res) :
    HasDerivAt (interp res pot) ((pot.getD (⌊x / res⌋.toNat + 1) 0 - pot.getD ⌊x / res⌋.toNat 0) / res) x := by
  have h1 : HasDerivAt (fun y => pot.getD ⌊x / res⌋.toNat 0 * (1 - (y / res - ⌊x / res⌋)) + pot.getD (⌊x / res⌋.toNat + 1) 0 * (y / res - ⌊x / res⌋))
      ((pot.getD (⌊x / res⌋.toNat + 1) 0 - pot.getD ⌊x / res⌋.toNat 0) / res) x := by
    have h2 : HasDerivAt (fun y : ℝ => y / res - ⌊x / res⌋) (1 / res) x := ((hasDerivAt_id x).div_const res).sub_const _
    refine (((h2.const_sub 1).const_mul _).add (h2.const_mul _)).congr_deriv ?_
    ring
  refine h1.congr_of_eventuallyEq ?_
  have hl : (⌊x / res⌋ : ℝ) < x / res := lt_of_le_of_ne (Int.floor_le _) fun hh => h ⌊x / res⌋ (by rw [hh]; field_simp)
  have hu := Int.lt_floor_add_one (x / res)
  have hc : Tendsto (fun y : ℝ => y / res) (𝓝 x) (𝓝 (x / res)) := (continuous_id.div_const res).tendsto x
  filter_upwards [hc.eventually (Ioo_mem_nhds hl hu)] with y hy
  have : ⌊y / res⌋ = ⌊x / res⌋ := Int.floor_eq_iff.2 ⟨hy.1.le, hy.2⟩
  simp only [interp, this]

theorem bondLength_nonneg (R : Mat ℝ) (x y : V3 ℝ) : 0 ≤ bondLength R x y := sqrt_nonneg _

/-- Atoms with the forces of the bond added. -/
def pushed (atoms : Fin n → Atom) (a1 a2 : Fin n) (f : V3 ℝ) : Fin n → Atom :=
  let s1 := Function.update atoms a1 { atoms a1 with force := fun k => (atoms a1).force k - f k }
  Function.update s1 a2 { s1 a2 with force := fun k => (s1 a2).force k + f k }

theorem pushed_force (atoms : Fin n → Atom) (a1 a2 : Fin n) (hne : a1 ≠ a2) (f : V3 ℝ) (c : Fin n) (k : Fin 3) :
    (pushed atoms a1 a2 f c).force k = (atoms c).force k + ((if c = a2 then f k else 0) - (if c = a1 then f k else 0)) := by
  unfold pushed
  by_cases c2 : c = a2
  · subst c2
    simp [Ne.symm hne]
  · by_cases c1 : c = a1
    · subst c1
      simp [c2]; ring
    · simp [c1, c2]

/-- Derivative of the potential as a force on the first atom. -/
def bondForce (b : Bond) (R : Mat ℝ) (q : List ℝ) (len : ℝ) (d : V3 ℝ) : V3 ℝ := fun k =>
  ((q.getD (⌊len / b.resolution⌋.toNat + 1) 0 - q.getD ⌊len / b.resolution⌋.toNat 0) / b.resolution / len) * mulMV (mulMM (M3.transpose R) R) d k

/-- What the function returns. -/
theorem bond_eval (b : Bond) (hr : 0 < b.resolution) (pot : List ℝ) (R : Mat ℝ) (atoms : Fin n → Atom) (a1 a2 : Fin n) (h1 : selectAtom atoms b.iSp1 b.at1 = .ok a1) (h2 : selectAtom atoms b.iSp2 b.at2 = .ok a2) :
    ∃ m : ℕ, minSize b.resolution (bondLength R (atoms a1).pos (atoms a2).pos) = .ok m ∧ bondLength R (atoms a1).pos (atoms a2).pos / b.resolution + 5 ≤ m ∧
      bondEnergyAndGrad b pot R atoms = .ok ⟨interp b.resolution (deposit b (bondLength R (atoms a1).pos (atoms a2).pos) 0 (pad pot m)) (bondLength R (atoms a1).pos (atoms a2).pos),
        deposit b (bondLength R (atoms a1).pos (atoms a2).pos) 0 (pad pot m),
        if bondLength R (atoms a1).pos (atoms a2).pos = 0 then none else
          some (pushed atoms a1 a2 (bondForce b R (deposit b (bondLength R (atoms a1).pos (atoms a2).pos) 0 (pad pot m)) (bondLength R (atoms a1).pos (atoms a2).pos) (dpos (atoms a1).pos (atoms a2).pos)))⟩ := by
  obtain ⟨m, hm, hm5, _⟩ := minSize_ok b.resolution _ hr (bondLength_nonneg R (atoms a1).pos (atoms a2).pos)
  refine ⟨m, hm, hm5, ?_⟩
  set len := bondLength R (atoms a1).pos (atoms a2).pos with hlen
  set q := deposit b len 0 (pad pot m) with hq
  have e0 : bondEnergyAndGrad b pot R atoms = interpolate b R q len (dpos (atoms a1).pos (atoms a2).pos) atoms a1 a2 := by
    simp only [bondEnergyAndGrad, h1, h2, Res.bind_ok, ← hlen, hm]
    rw [← hq]
  have hx : 0 ≤ len / b.resolution := div_nonneg (bondLength_nonneg R _ _) hr.le
  have hi : 0 ≤ ⌊len / b.resolution⌋ := Int.floor_nonneg.2 hx
  have hL : q.length = max pot.length m := by rw [hq, deposit_length, pad_length]
  have hlt : ⌊len / b.resolution⌋.toNat + 1 < q.length := by
    have h3 : ((⌊len / b.resolution⌋.toNat : ℕ) : ℝ) = (⌊len / b.resolution⌋ : ℤ) := by exact_mod_cast congrArg (Int.cast : ℤ → ℝ) (Int.toNat_of_nonneg hi)
    have h4 := Int.floor_le (len / b.resolution)
    have h5 : ((⌊len / b.resolution⌋.toNat + 1 : ℕ) : ℝ) < m := by push_cast; rw [h3]; linarith
    have h6 : ⌊len / b.resolution⌋.toNat + 1 < m := by exact_mod_cast h5
    omega
  have g0 : q[⌊len / b.resolution⌋.toNat]? = some (q.getD ⌊len / b.resolution⌋.toNat 0) := by
    rw [List.getD, List.getElem?_eq_getElem (by omega)]; rfl
  have g1 : q[⌊len / b.resolution⌋.toNat + 1]? = some (q.getD (⌊len / b.resolution⌋.toNat + 1) 0) := by
    rw [List.getD, List.getElem?_eq_getElem hlt]; rfl
  rw [e0]
  simp only [interpolate, if_neg (not_lt.2 hi), g0, g1]
  rfl

/-- **C104 (bond).** For any positive resolution, potential and atoms: the function returns; the potential at every grid point, as many as before or more and at least to five points beyond
the bond length, has increased by a Gaussian with the energy per step as its integral; the energy is a piecewise linear function with the values of the potential; and unless the atoms
coincide, the forces add up to what they were, and are minus the derivatives of that function of the distance with respect to the positions, where it has one. -/
theorem C104_bond (b : Bond) (hr : 0 < b.resolution) (pot : List ℝ) (R : Mat ℝ) (atoms : Fin n → Atom) (a1 a2 : Fin n) (h1 : selectAtom atoms b.iSp1 b.at1 = .ok a1) (h2 : selectAtom atoms b.iSp2 b.at2 = .ok a2) :
    ∃ (out : Out n) (f : ℝ → ℝ), bondEnergyAndGrad b pot R atoms = .ok out ∧ PiecewiseLinear b.resolution out.potential f ∧ out.E = f (bondLength R (atoms a1).pos (atoms a2).pos) ∧
      pot.length ≤ out.potential.length ∧ bondLength R (atoms a1).pos (atoms a2).pos / b.resolution + 5 ≤ out.potential.length ∧
      (∀ i (h : i < out.potential.length), out.potential[i] = (if h' : i < pot.length then pot[i] else 0) + kernel b (bondLength R (atoms a1).pos (atoms a2).pos) (i * b.resolution)) ∧
      (bondLength R (atoms a1).pos (atoms a2).pos ≠ 0 → ∃ s, out.atoms = some s ∧ (∀ k, ∑ c, (s c).force k = ∑ c, (atoms c).force k) ∧
        ((∀ m : ℤ, bondLength R (atoms a1).pos (atoms a2).pos ≠ m * b.resolution) → (Inside fun k => (atoms a1).pos k - (atoms a2).pos k) → ∀ c u,
          HasDerivAt (fun t => f (bondLength R (moved atoms c u t a1).pos (moved atoms c u t a2).pos)) (-∑ k, ((s c).force k - (atoms c).force k) * u k) 0)) := by
  obtain ⟨m, _, hm, he⟩ := bond_eval b hr pot R atoms a1 a2 h1 h2
  set len := bondLength R (atoms a1).pos (atoms a2).pos with hlen
  set q := deposit b len 0 (pad pot m) with hq
  have hL : q.length = max pot.length m := by rw [hq, deposit_length, pad_length]
  refine ⟨_, interp b.resolution q, he, interp_linear b.resolution hr q, rfl, ?_, ?_, ?_, ?_⟩
  · show pot.length ≤ q.length
    rw [hL]; exact le_max_left _ _
  · show len / b.resolution + 5 ≤ q.length
    refine le_trans hm ?_
    rw [hL]; exact_mod_cast le_max_right _ _
  · intro i h
    have hp : i < (pad pot m).length := by rw [pad_length, ← hL]; exact h
    show q[i] = _
    rw [deposit_get b hr.ne' len _ 0 i h hp, pad_get, zero_add]
  · intro hz
    have hne : a1 ≠ a2 := by
      rintro rfl
      apply hz
      rw [hlen]
      have : dpos (atoms a1).pos (atoms a1).pos = fun _ => 0 := by funext k; simp [dpos, Fluid.roundSym]; norm_num
      simp [bondLength, this, metricLengthSq]
    rw [if_neg hz]
    refine ⟨_, rfl, ?_, ?_⟩
    · intro k
      simp only [pushed_force atoms a1 a2 hne, Finset.sum_add_distrib, Finset.sum_sub_distrib, Finset.sum_ite_eq', Finset.mem_univ, if_true]
      ring
    · intro hgrid hin c u
      have hp : ∀ a t, (moved atoms c u t a).pos = fun k => (atoms a).pos k + t * (if a = c then u k else 0) := fun a t => by
        funext k; simp only [moved, Ewald.displace]; split <;> simp
      have hd : HasDerivAt (fun t : ℝ => bondLength R (moved atoms c u t a1).pos (moved atoms c u t a2).pos)
          ((∑ k, mulMV (mulMM (M3.transpose R) R) (dpos (atoms a1).pos (atoms a2).pos) k * ((if a1 = c then u k else 0) - (if a2 = c then u k else 0))) / len) 0 := by
        have h3 := length_deriv R (dpos (atoms a1).pos (atoms a2).pos) (fun k => (if a1 = c then u k else 0) - (if a2 = c then u k else 0)) hz
        refine h3.congr_of_eventuallyEq ?_
        filter_upwards [dpos_near (atoms a1).pos (atoms a2).pos (fun k => if a1 = c then u k else 0) (fun k => if a2 = c then u k else 0) hin] with t ht
        simp only [hp, bondLength, ht]
      have h0 : bondLength R (moved atoms c u 0 a1).pos (moved atoms c u 0 a2).pos = len := by
        simp only [hp, zero_mul, add_zero]; rfl
      have h4 := interp_deriv b.resolution hr q len hgrid
      rw [← h0] at h4
      refine (h4.comp (0 : ℝ) hd).congr_deriv ?_
      rw [h0]
      simp only [pushed_force atoms a1 a2 hne, bondForce, Fin.sum_univ_three, eq_comm (a := a1), eq_comm (a := a2)]
      split <;> split <;> ring

def exBond : Bond := ⟨4, 0, 4, 1, 0.3, 0.01⟩

theorem exBond_select : selectAtom exAtoms 4 0 = .ok 0 ∧ selectAtom exAtoms 4 1 = .ok 1 := by
  constructor
  · rw [(C104_select exAtoms 4 0).1]; simp [exAtoms, countBefore]
  · rw [(C104_select exAtoms 4 1).1]; simp [exAtoms, countBefore, List.finRange_succ]

theorem ex_dpos : dpos (exAtoms 0).pos (exAtoms 1).pos = vec (-0.3) (-0.4) 0 := by
  have h : ∀ k, Fluid.roundSym ((exAtoms 0).pos k - (exAtoms 1).pos k) = 0 := fun k =>
    round_mid _ 0 (by fin_cases k <;> simp [exAtoms, vec] <;> norm_num) (by fin_cases k <;> simp [exAtoms, vec] <;> norm_num)
  funext k
  simp only [dpos, h k]
  fin_cases k <;> simp [exAtoms, vec] <;> norm_num

theorem ex_len : bondLength exR (exAtoms 0).pos (exAtoms 1).pos = 5 := by
  rw [bondLength, ex_dpos]
  have : metricLengthSq (mulMM (M3.transpose exR) exR) (vec (-0.3) (-0.4) 0) = 5 ^ 2 := by
    simp [metricLengthSq, mulMM, M3.transpose, exR, diag, vec]; norm_num
  rw [this, sqrt_sq (by norm_num)]

example := C104_bond exBond (by norm_num [exBond]) [] exR exAtoms 0 1 exBond_select.1 exBond_select.2
example : (bondLength exR (exAtoms 0).pos (exAtoms 1).pos ≠ 0) ∧ (∀ m : ℤ, bondLength exR (exAtoms 0).pos (exAtoms 1).pos ≠ m * exBond.resolution) ∧ Inside fun k => (exAtoms 0).pos k - (exAtoms 1).pos k := by
  rw [ex_len]
  refine ⟨by norm_num, ?_, ex_inside _ fun k => by fin_cases k <;> simp [exAtoms, vec] <;> norm_num⟩
  intro m hm
  have h1 : (50 : ℝ) = m * 3 := by simp [exBond] at hm; linarith
  have h2 : (50 : ℤ) = m * 3 := by exact_mod_cast h1
  omega

/-- **C104 (history).** Updates at any series of bond lengths, starting with no potential: every one succeeds, all bond lengths are within the grid, and the potential at every grid point is
the sum of the Gaussians, except that those which a point missed before it was added can be missing: less than exp(-12.5) times the peak for each. -/
theorem C104_history (b : Bond) (hr : 0 < b.resolution) (he : 0 ≤ b.energyPerStep) (lens : List ℝ) (hl : ∀ len ∈ lens, 0 ≤ len) :
    ∃ out, history b [] lens = .ok out ∧ (∀ len ∈ lens, len / b.resolution + 5 ≤ out.length) ∧
      ∀ i (h : i < out.length), (lens.map fun len => kernel b len (i * b.resolution)).sum - lens.length * (kernel b 0 0 * exp (-25 / 2)) ≤ out[i] ∧
        out[i] ≤ (lens.map fun len => kernel b len (i * b.resolution)).sum := by
  obtain ⟨out, h1, _, h3, h4⟩ := history_inv b hr he lens [] (fun _ => 0) 0 hl (by simp) (by simp) (by simp)
  refine ⟨out, h1, h3, fun i h => ?_⟩
  have hk : kernel b 0 0 = b.energyPerStep / (b.resolution * sqrt (2 * π)) := by simp [kernel]
  rw [hk]
  simpa using h4 i h

example := C104_history exBond (by norm_num [exBond]) (by norm_num [exBond]) [5, 3, 7] (by simp)

/-- **C104 (two updates per step).** One calculation of energy and forces adds the Gaussian twice, so that twice the energy per step is added. -/
theorem C104_double_fails (b : Bond) (hr : 0 < b.resolution) (pot : List ℝ) (R : Mat ℝ) (atoms : Fin n → Atom) (a1 a2 : Fin n) (h1 : selectAtom atoms b.iSp1 b.at1 = .ok a1) (h2 : selectAtom atoms b.iSp2 b.at2 = .ok a2) :
    ∃ out, compute b pot R atoms = .ok out ∧ ∀ i (h : i < out.potential.length),
      out.potential[i] = (if h' : i < pot.length then pot[i] else 0) + 2 * kernel b (bondLength R (atoms a1).pos (atoms a2).pos) (i * b.resolution) := by
  obtain ⟨m, hm, _, he1⟩ := bond_eval b hr pot R atoms a1 a2 h1 h2
  set len := bondLength R (atoms a1).pos (atoms a2).pos with hlen
  obtain ⟨m2, hm2, _, he2⟩ := bond_eval b hr (deposit b len 0 (pad pot m)) R atoms a1 a2 h1 h2
  have e : m2 = m := by
    rw [hm] at hm2
    exact (Except.ok.inj hm2).symm
  subst e
  refine ⟨_, by rw [compute, he1, Res.bind_ok, he2, Res.bind_ok], ?_⟩
  intro i h
  have hL1 : (deposit b len 0 (pad pot m2)).length = max pot.length m2 := by rw [deposit_length, pad_length]
  have hp2 : i < (pad (deposit b len 0 (pad pot m2)) m2).length := by rw [← deposit_length b len _ 0]; exact h
  have hi : i < (deposit b len 0 (pad pot m2)).length := by
    rw [pad_length, hL1] at hp2
    rw [hL1]; omega
  show (deposit b len 0 (pad (deposit b len 0 (pad pot m2)) m2))[i]'h = _
  rw [deposit_get b hr.ne' len _ 0 i h hp2, pad_get, zero_add, dif_pos hi, deposit_get b hr.ne' len _ 0 i hi (by rwa [deposit_length] at hi), pad_get, zero_add]
  ring

example := C104_double_fails exBond (by norm_num [exBond]) [] exR exAtoms 0 1 exBond_select.1 exBond_select.2

/-- **C104 (atoms that coincide).** When both selections are the same atom, or the atoms are at the same position or periodic images of it, the forces are not numbers. -/
theorem C104_coincide_fails (b : Bond) (hr : 0 < b.resolution) (pot : List ℝ) (R : Mat ℝ) (atoms : Fin n → Atom) (a1 a2 : Fin n) (h1 : selectAtom atoms b.iSp1 b.at1 = .ok a1) (h2 : selectAtom atoms b.iSp2 b.at2 = .ok a2)
    (m : Fin 3 → ℤ) (h : ∀ k, (atoms a1).pos k = (atoms a2).pos k + m k) : ∃ out, bondEnergyAndGrad b pot R atoms = .ok out ∧ out.atoms = none := by
  obtain ⟨_, _, _, he⟩ := bond_eval b hr pot R atoms a1 a2 h1 h2
  refine ⟨_, he, ?_⟩
  have : dpos (atoms a1).pos (atoms a2).pos = fun _ => 0 := by
    funext k
    simp only [dpos, h k, add_sub_cancel_left]
    rw [round_mid (m k) (m k) (by linarith) (by linarith), sub_self]
  show (if _ = _ then _ else _) = none
  rw [if_pos]
  simp [bondLength, this, metricLengthSq]

example : ∃ out, bondEnergyAndGrad { exBond with at2 := 0 } [] exR exAtoms = .ok out ∧ out.atoms = none :=
  C104_coincide_fails { exBond with at2 := 0 } (by norm_num [exBond]) [] exR exAtoms 0 0 exBond_select.1 exBond_select.1 (fun _ => 0) (by simp)

/-- **C104 (resolution).** The resolution is not checked: with zero, or a negative one whose magnitude is at most the bond length, behaviour is undefined. -/
theorem C104_resolution_fails (b : Bond) (pot : List ℝ) (R : Mat ℝ) (atoms : Fin n → Atom) (a1 a2 : Fin n) (h1 : selectAtom atoms b.iSp1 b.at1 = .ok a1) (h2 : selectAtom atoms b.iSp2 b.at2 = .ok a2)
    (hr : b.resolution = 0 ∨ b.resolution < 0 ∧ -b.resolution ≤ bondLength R (atoms a1).pos (atoms a2).pos) : bondEnergyAndGrad b pot R atoms = .error .ub := by
  have hm : minSize b.resolution (bondLength R (atoms a1).pos (atoms a2).pos) = .error .ub := by
    unfold minSize
    rw [if_pos]
    rcases hr with h | ⟨h, h'⟩
    · exact Or.inl h
    · right
      rw [Int.ceil_le]
      push_cast
      rw [div_le_iff_of_neg h]; linarith
  simp only [bondEnergyAndGrad, h1, h2, Res.bind_ok, hm, Res.bind_error]

example : bondEnergyAndGrad { exBond with resolution := -0.3 } [] exR exAtoms = .error .ub :=
  C104_resolution_fails { exBond with resolution := -0.3 } [] exR exAtoms 0 1 exBond_select.1 exBond_select.2 (Or.inr ⟨by norm_num, by rw [ex_len]; norm_num⟩)

/-- **C104 (bond stress).** The energy of the bond depends on the lattice, but nothing is added to the lattice gradient: there are a potential and a symmetric strain under which the energy
of the updated potential changes at a rate that is not zero. -/
theorem C104_bond_stress_fails : ∃ (b : Bond) (pot : List ℝ) (R e : Mat ℝ) (atoms : Fin 2 → Atom) (out : Out 2) (f : ℝ → ℝ) (rate : ℝ), 0 < b.resolution ∧ (∀ i j, e i j = e j i) ∧
    bondEnergyAndGrad b pot R atoms = .ok out ∧ PiecewiseLinear b.resolution out.potential f ∧ rate ≠ 0 ∧
    HasDerivAt (fun t => f (bondLength (Ewald.strained R e t) (atoms 0).pos (atoms 1).pos)) rate 0 ∧
    ∀ S, Ewald.contract (fun i j => bondStress S i j - S i j) e = 0 := by
  have hr : (0 : ℝ) < (⟨4, 0, 4, 1, 2, 0⟩ : Bond).resolution := by norm_num
  obtain ⟨m, _, hm, he⟩ := bond_eval ⟨4, 0, 4, 1, 2, 0⟩ hr [0, 0, 0, 1] exR exAtoms 0 1 exBond_select.1 exBond_select.2
  rw [ex_len] at hm he
  refine ⟨⟨4, 0, 4, 1, 2, 0⟩, [0, 0, 0, 1], exR, diag 1 1 1, exAtoms, _, _, 5 / 2, hr, ?_, he, interp_linear 2 two_pos _, by norm_num, ?_, ?_⟩
  · intro i j; fin_cases i <;> fin_cases j <;> simp [diag]
  · have hlen : ∀ t : ℝ, 0 < 1 + t → bondLength (Ewald.strained exR (diag 1 1 1) t) (exAtoms 0).pos (exAtoms 1).pos = 5 * (1 + t) := by
      intro t ht
      rw [bondLength, ex_dpos]
      have : metricLengthSq (mulMM (M3.transpose (Ewald.strained exR (diag 1 1 1) t)) (Ewald.strained exR (diag 1 1 1) t)) (vec (-0.3) (-0.4) 0) = (5 * (1 + t)) ^ 2 := by
        simp [metricLengthSq, mulMM, M3.transpose, exR, diag, vec, Ewald.strained]; ring
      rw [this, sqrt_sq (by linarith)]
    have hL : (deposit ⟨4, 0, 4, 1, 2, 0⟩ 5 0 (pad [0, 0, 0, 1] m)).length = max 4 m := by rw [deposit_length, pad_length]; rfl
    have hg : ∀ i : ℕ, (deposit ⟨4, 0, 4, 1, 2, 0⟩ 5 0 (pad [0, 0, 0, 1] m)).getD i 0 = if i = 3 then 1 else 0 := by
      intro i
      by_cases h : i < (deposit ⟨4, 0, 4, 1, 2, 0⟩ 5 0 (pad [0, 0, 0, 1] m)).length
      · rw [List.getD, List.getElem?_eq_getElem h, Option.getD_some, deposit_get _ hr.ne' _ _ 0 i h (by rwa [deposit_length] at h), pad_get]
        have : kernel ⟨4, 0, 4, 1, 2, 0⟩ 5 (0 + i * 2) = 0 := by simp [kernel]
        rw [this, add_zero]
        split
        · rename_i h4
          have h4 : i < 4 := by simpa using h4
          have h' : i = 0 ∨ i = 1 ∨ i = 2 ∨ i = 3 := by omega
          rcases h' with rfl | rfl | rfl | rfl <;> simp
        · rename_i h4
          rw [if_neg]
          rintro rfl
          simp at h4
      · rw [List.getD, List.getElem?_eq_none (not_lt.1 h), Option.getD_none, if_neg]
        rintro rfl
        rw [hL] at h
        have := le_max_left 4 m
        omega
    have hd := interp_deriv 2 two_pos (deposit ⟨4, 0, 4, 1, 2, 0⟩ 5 0 (pad [0, 0, 0, 1] m)) 5 (fun k hk => by
      have : (5 : ℤ) = k * 2 := by exact_mod_cast hk
      omega)
    have hf : ⌊(5 : ℝ) / 2⌋ = 2 := Int.floor_eq_iff.2 ⟨by norm_num, by norm_num⟩
    rw [hf, hg, hg] at hd
    have h5 : HasDerivAt (fun t : ℝ => 5 * (1 + t)) 5 0 := by
      simpa using ((hasDerivAt_id (0 : ℝ)).const_add 1).const_mul 5
    have hd' : HasDerivAt (interp 2 (deposit ⟨4, 0, 4, 1, 2, 0⟩ 5 0 (pad [0, 0, 0, 1] m))) (1 / 2) (5 * (1 + 0)) := by
      simpa using hd
    have h6 := (hd'.comp (0 : ℝ) h5).congr_deriv (show (1 / 2 : ℝ) * 5 = 5 / 2 by norm_num)
    refine h6.congr_of_eventuallyEq ?_
    filter_upwards [Ioi_mem_nhds (show (-1 : ℝ) < 0 by norm_num)] with t ht
    have : 0 < 1 + t := by have := Set.mem_Ioi.1 ht; linarith
    simp only [hlen t this, Function.comp]
  · intro S; simp [Ewald.contract, bondStress]

/-- **C104 (minimum image).** The rounding of lattice coordinates does not give the closest image in every lattice: the bond can be taken to an image that is farther. -/
theorem C104_image_fails : ∃ (R : Mat ℝ) (x y : V3 ℝ) (m : Fin 3 → ℤ), det R ≠ 0 ∧ sqrt (distSq R x fun k => y k + m k) < bondLength R x y := by
  refine ⟨ofCols (vec 1 0 0) (vec 1 1 0) (vec 0 0 1), vec (2 / 5) (2 / 5) 0, fun _ => 0, fun k => if k = 0 then 1 else 0, ?_, ?_⟩
  · simp [det, box, dot, cross, row, vec, ofCols]
  · have hd : dpos (vec (2 / 5) (2 / 5) 0) (fun _ => 0) = vec (2 / 5) (2 / 5) 0 := by
      funext k
      have : Fluid.roundSym ((vec (2 / 5) (2 / 5) 0 : V3 ℝ) k - 0) = 0 :=
        round_mid _ 0 (by fin_cases k <;> simp [vec] <;> norm_num) (by fin_cases k <;> simp [vec] <;> norm_num)
      simp only [dpos, this]; simp
    rw [bondLength, hd, metric_dot]
    refine sqrt_lt_sqrt ?_ ?_
    · exact add_nonneg (add_nonneg (mul_self_nonneg _) (mul_self_nonneg _)) (mul_self_nonneg _)
    · simp [distSq, dot, mulMV, ofCols, vec]; norm_num

/-- In rectangular lattices it does. -/
theorem C104_image_partial (a b c : ℝ) (x y : V3 ℝ) (m : Fin 3 → ℤ) : bondLength (diag a b c) x y ≤ sqrt (distSq (diag a b c) x fun k => y k + m k) := by
  rw [bondLength, metric_dot]
  refine sqrt_le_sqrt ?_
  have hr : ∀ (d : ℝ) (m : ℤ), (d - (Fluid.roundSym d : ℤ)) ^ 2 ≤ (d - m) ^ 2 := by
    intro d m
    have hle : |d - (Fluid.roundSym d : ℤ)| ≤ 1 / 2 := by
      unfold Fluid.roundSym
      split
      · rename_i h
        rw [abs_of_neg h]
        have h1 := Int.floor_le (-d + 0.5)
        have h2 := Int.lt_floor_add_one (-d + 0.5)
        push_cast
        rw [abs_le]; constructor <;> linarith
      · rename_i h
        rw [abs_of_nonneg (not_lt.1 h)]
        have h1 := Int.floor_le (d + 0.5)
        have h2 := Int.lt_floor_add_one (d + 0.5)
        rw [abs_le]; constructor <;> linarith
    by_cases hm : m = Fluid.roundSym d
    · rw [hm]
    · have h1 : (1 : ℝ) ≤ |(Fluid.roundSym d : ℝ) - m| := by
        have : (1 : ℤ) ≤ |Fluid.roundSym d - m| := Int.one_le_abs (sub_ne_zero.2 (Ne.symm hm))
        exact_mod_cast this
      have h2 : |(Fluid.roundSym d : ℝ) - m| ≤ |d - (Fluid.roundSym d : ℤ)| + |d - m| := by
        have := abs_sub_le (Fluid.roundSym d : ℝ) d m
        rwa [abs_sub_comm (Fluid.roundSym d : ℝ) d] at this
      refine sq_le_sq.2 ?_
      linarith
  have h0 := hr (x 0 - y 0) (m 0)
  have h1 := hr (x 1 - y 1) (m 1)
  have h2 := hr (x 2 - y 2) (m 2)
  have e : ∀ v : V3 ℝ, dot (mulMV (diag a b c) v) (mulMV (diag a b c) v) = a ^ 2 * v 0 ^ 2 + b ^ 2 * v 1 ^ 2 + c ^ 2 * v 2 ^ 2 := fun v => by
    simp [dot, mulMV, diag, vec]; ring
  rw [distSq, e, e]
  simp only [dpos, ← sub_sub]
  have := mul_le_mul_of_nonneg_left h0 (sq_nonneg a)
  have := mul_le_mul_of_nonneg_left h1 (sq_nonneg b)
  have := mul_le_mul_of_nonneg_left h2 (sq_nonneg c)
  linarith

end
end Jdftx.IonExt
