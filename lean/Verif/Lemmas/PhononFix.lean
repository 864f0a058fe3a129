import Verif.Lemmas.PhononRefine
import Mathlib.LinearAlgebra.Matrix.ToLinearEquiv
import Mathlib.Analysis.Complex.RealDeriv
import Mathlib.Analysis.SpecialFunctions.ExpDeriv

/-!
# Lemmas for C98: the correction of the first moment
-/
namespace Jdftx.Phonon
noncomputable section
open M3 Matrix

variable {n : Nat}

/-! ### Sums over lists -/

theorem lsum_add {α : Type*} (F : List α) (f g : α → ℝ) : (F.map fun x => f x + g x).sum = (F.map f).sum + (F.map g).sum := by
  induction F with
  | nil => simp
  | cons a F ih => simp only [List.map_cons, List.sum_cons, ih]; ring

theorem lsum_mul {α : Type*} (F : List α) (f : α → ℝ) (c : ℝ) : (F.map fun x => f x * c).sum = (F.map f).sum * c := by
  induction F with
  | nil => simp
  | cons a F ih => simp only [List.map_cons, List.sum_cons, ih]; ring

theorem lsum_mul' {α : Type*} (F : List α) (f : α → ℝ) (c : ℝ) : (F.map fun x => c * f x).sum = c * (F.map f).sum := by
  simp only [mul_comm c]; exact lsum_mul F f c

theorem lsum_neg {α : Type*} (F : List α) (f : α → ℝ) : (F.map fun x => -f x).sum = -(F.map f).sum := by
  have := lsum_mul F f (-1)
  simpa using this

theorem lsum_sum {α ι : Type*} (s : Finset ι) (F : List α) (f : α → ι → ℝ) : (F.map fun x => ∑ i ∈ s, f x i).sum = ∑ i ∈ s, (F.map fun x => f x i).sum := by
  induction F with
  | nil => simp
  | cons a F ih => simp only [List.map_cons, List.sum_cons, ih, Finset.sum_add_distrib]

theorem lsum_congr {α : Type*} {F : List α} {f g : α → ℝ} (h : ∀ x ∈ F, f x = g x) : (F.map f).sum = (F.map g).sum := by
  rw [List.map_congr_left h]

/-- A sum over cells in terms of the opposite cells. -/
theorem sum_opp {α : Type*} (cell : α → Box.IV) {F : List α} (hnd : (F.map cell).Nodup) (hopp : ∀ f ∈ F, ∃ f' ∈ F, cell f' = opp (cell f)) (φ ψ : α → ℝ)
    (h : ∀ f ∈ F, ∀ f' ∈ F, cell f' = opp (cell f) → ψ f' = φ f) : (F.map φ).sum = (F.map ψ).sum := by
  classical
  have hF : F.Nodup := hnd.of_map
  have hinj : ∀ f ∈ F, ∀ f' ∈ F, cell f = cell f' → f = f' := fun f hf f' hf' e => List.inj_on_of_nodup_map hnd hf hf' e
  rw [← List.sum_toFinset _ hF, ← List.sum_toFinset _ hF]
  choose! p hp hc using hopp
  refine Finset.sum_bij (fun f _ => p f) ?_ ?_ ?_ ?_
  · intro f hf; simpa using hp f (by simpa using hf)
  · intro f hf f' hf' e
    have hf := List.mem_toFinset.1 hf
    have hf' := List.mem_toFinset.1 hf'
    apply hinj f hf f' hf'
    have h1 := hc f hf
    have h2 := hc f' hf'
    rw [e, h2] at h1
    have := congrArg opp h1
    rwa [opp_opp, opp_opp, eq_comm] at this
  · intro f hf
    have hf := List.mem_toFinset.1 hf
    refine ⟨p f, by simpa using hp f hf, ?_⟩
    apply hinj _ (hp _ (hp f hf)) f hf
    rw [hc _ (hp f hf), hc f hf, opp_opp]
  · intro f hf
    have hf := List.mem_toFinset.1 hf
    exact (h f hf _ (hp f hf) (hc f hf)).symm

/-! ### Setting -/

/-- The force matrices are on the cells of a suitable map, symmetric and obey the sum rule. -/
structure Good (g : Geom n) (F : Forces n) : Prop where
  pos : g.S.Pos
  map : MapOK g.S n (F.map Prod.fst)
  symm : ForceSymm F
  sum : ForceSum F

variable {g : Geom n} {F : Forces n}

theorem Good.nodup (h : MapOK g.S n (F.map Prod.fst)) : (F.map fun f => f.1.cell).Nodup := by
  have := h.nodup
  rwa [List.map_map] at this

theorem Good.partner (h : MapOK g.S n (F.map Prod.fst)) : ∀ f ∈ F, ∃ f' ∈ F, f'.1.cell = opp f.1.cell := by
  intro f hf
  obtain ⟨e, he, hc, _⟩ := h.opp f.1 (List.mem_map_of_mem hf)
  obtain ⟨f', hf', rfl⟩ := List.mem_map.1 he
  exact ⟨f', hf', hc⟩

theorem Good.inj (h : MapOK g.S n (F.map Prod.fst)) {f f' : CellMap.Entry × RMat n} (hf : f ∈ F) (hf' : f' ∈ F)
    (e : f.1.cell = f'.1.cell) : f = f' := List.inj_on_of_nodup_map (Good.nodup h) hf hf' e

theorem Good.weight (h : MapOK g.S n (F.map Prod.fst)) {f f' : CellMap.Entry × RMat n} (hf : f ∈ F) (hf' : f' ∈ F)
    (e : f'.1.cell = opp f.1.cell) (a b : Fin n) : f'.1.w b a = f.1.w a b := by
  obtain ⟨e', he, hc, hw⟩ := h.opp f.1 (List.mem_map_of_mem hf)
  obtain ⟨f'', hf'', rfl⟩ := List.mem_map.1 he
  have := Good.inj h hf' hf'' (e.trans hc.symm)
  subst this
  exact hw a a.2 b b.2

theorem Good.mat (h : MapOK g.S n (F.map Prod.fst)) (hs : ForceSymm F) {f f' : CellMap.Entry × RMat n} (hf : f ∈ F) (hf' : f' ∈ F)
    (e : f'.1.cell = opp f.1.cell) (i j : Mode n) : f'.2 j i = f.2 i j := by
  obtain ⟨f'', hf'', hc, hw⟩ := hs f hf
  have := Good.inj h hf' hf'' (e.trans hc.symm)
  subst this
  exact hw i j

theorem dr_opp {e e' : CellMap.Entry} (h : e'.cell = opp e.cell) (a b : Fin n) (l : Fin 3) : dr g e' b a l = -dr g e a b l := by
  have h3 : ∀ l, CellMap.toV e'.cell l = -CellMap.toV e.cell l := by
    intro l
    rw [h]
    unfold CellMap.toV opp
    fin_cases l <;> simp [vec]
  unfold dr mulMV
  simp only [h3]
  ring

/-- Total weight of a pair of atoms. -/
theorem weight_total (hS : g.S.Pos) (h : MapOK g.S n (F.map Prod.fst)) (a b : Fin n) : (F.map fun f => f.1.w a b).sum = prodSup g.S := by
  have key : ∀ (L : List CellMap.Entry), (L.map fun e => e.w a b).sum =
      ∑ u ∈ Finset.range (prodSup g.S), ((L.filter fun e => decide (getUnit g.S e.cell = (u : Int))).map fun e => e.w a b).sum := by
    intro L
    induction L with
    | nil => simp
    | cons e L ih =>
      rw [List.map_cons, List.sum_cons, ih]
      have : ∀ u ∈ Finset.range (prodSup g.S), (((e :: L).filter fun e => decide (getUnit g.S e.cell = (u : Int))).map fun e => e.w a b).sum =
          (if u = uOf g.S e.cell then e.w a b else 0) + ((L.filter fun e => decide (getUnit g.S e.cell = (u : Int))).map fun e => e.w a b).sum := by
        intro u _
        by_cases hu : u = uOf g.S e.cell
        · rw [if_pos hu, List.filter_cons_of_pos (by rw [getUnit_nat hS, hu]; simp), List.map_cons, List.sum_cons]
        · rw [if_neg hu, List.filter_cons_of_neg (by rw [getUnit_nat hS]; simp only [decide_eq_true_eq]; intro e; exact hu (by exact_mod_cast e.symm)), zero_add]
      rw [Finset.sum_congr rfl this, Finset.sum_add_distrib, Finset.sum_ite_eq', if_pos (Finset.mem_range.2 (uOf_lt hS _))]
  have e : (F.map fun f => f.1.w a b) = ((F.map Prod.fst).map fun e => e.w a b) := by rw [List.map_map]; rfl
  rw [e, key, Finset.sum_congr rfl fun u hu => h.one u (Finset.mem_range.1 hu) a a.2 b b.2]
  simp

/-! ### Moments -/

theorem err_anti (h : MapOK g.S n (F.map Prod.fst)) (hs : ForceSymm F) (i j l : Fin 3) : err g F i j l = -err g F j i l := by
  unfold err
  rw [← lsum_neg]
  refine sum_opp (fun f => f.1.cell) (Good.nodup h) (Good.partner h) _ _ fun f hf f' hf' e => ?_
  show -(∑ a, ∑ b, dr g f'.1 a b l * f'.2 (a, j) (b, i)) = ∑ a, ∑ b, dr g f.1 a b l * f.2 (a, i) (b, j)
  rw [Finset.sum_comm, ← Finset.sum_neg_distrib]
  refine Finset.sum_congr rfl fun a _ => ?_
  rw [← Finset.sum_neg_distrib]
  refine Finset.sum_congr rfl fun b _ => ?_
  rw [dr_opp e, Good.mat h hs hf hf' e]
  ring

theorem vSum_anti (h : MapOK g.S n (F.map Prod.fst)) (a b : Fin n) (l : Fin 3) : vSum g F a b l = -vSum g F b a l := by
  unfold vSum
  rw [← lsum_neg]
  refine sum_opp (fun f => f.1.cell) (Good.nodup h) (Good.partner h) _ _ fun f hf f' hf' e => ?_
  show -(f'.1.w b a * dr g f'.1 b a l) = f.1.w a b * dr g f.1 a b l
  rw [dr_opp e, Good.weight h hf hf' e]
  ring

theorem gTensor_anti (alpha : Matrix (Fin 3) (Fin 3) ℝ) (h : MapOK g.S n (F.map Prod.fst)) (hs : ForceSymm F) (i j l : Fin 3) :
    gTensor alpha g F i j l = -gTensor alpha g F j i l := by
  unfold gTensor
  rw [neg_neg, ← Finset.sum_neg_distrib]
  refine Finset.sum_congr rfl fun l' _ => ?_
  rw [err_anti h hs i j]
  ring

theorem dFsum_eq (alpha : Matrix (Fin 3) (Fin 3) ℝ) (i j : Mode n) :
    dFsum alpha g F i j = ∑ l, vSum g F i.1 j.1 l * gTensor alpha g F i.2 j.2 l := by
  unfold dFsum dF vSum
  simp only [Finset.mul_sum]
  rw [lsum_sum]
  refine Finset.sum_congr rfl fun l _ => ?_
  rw [← lsum_mul]
  exact lsum_congr fun f _ => by ring

theorem dF0_eq (alpha : Matrix (Fin 3) (Fin 3) ℝ) (i j : Mode n) : dF0 alpha g F i j = 1 / (prodSup g.S : ℝ) * msum (dFsum alpha g F) i j := by
  unfold dF0
  rw [sums_eq, Complex.ofReal_re]

theorem dFsum_symm (alpha : Matrix (Fin 3) (Fin 3) ℝ) (h : MapOK g.S n (F.map Prod.fst)) (hs : ForceSymm F) (i j : Mode n) :
    dFsum alpha g F i j = dFsum alpha g F j i := by
  rw [dFsum_eq, dFsum_eq]
  refine Finset.sum_congr rfl fun l _ => ?_
  rw [vSum_anti h i.1, gTensor_anti alpha h hs i.2]
  ring

/-- The corrected matrices, for any `alpha`. -/
def fixed (alpha : Matrix (Fin 3) (Fin 3) ℝ) (g : Geom n) (F : Forces n) : Forces n :=
  F.map fun f => (f.1, fun i j => f.2 i j + dF alpha g F f.1 i j + dF0 alpha g F i j * f.1.w i.1 j.1)

theorem fixed_fst (alpha : Matrix (Fin 3) (Fin 3) ℝ) : (fixed alpha g F).map Prod.fst = F.map Prod.fst := by
  unfold fixed; rw [List.map_map]; rfl

theorem fixed_symm (alpha : Matrix (Fin 3) (Fin 3) ℝ) (h : MapOK g.S n (F.map Prod.fst)) (hs : ForceSymm F) : ForceSymm (fixed alpha g F) := by
  intro f0 hf0
  obtain ⟨f, hf, rfl⟩ := List.mem_map.1 hf0
  obtain ⟨f', hf', e⟩ := Good.partner h f hf
  refine ⟨_, List.mem_map_of_mem hf', e, ?_⟩
  intro i j
  show f'.2 j i + dF alpha g F f'.1 j i + dF0 alpha g F j i * f'.1.w j.1 i.1 = f.2 i j + dF alpha g F f.1 i j + dF0 alpha g F i j * f.1.w i.1 j.1
  rw [Good.mat h hs hf hf' e, Good.weight h hf hf' e, dF0_eq, dF0_eq, msum_comm (dFsum_symm alpha h hs) j i]
  congr 2
  unfold dF
  rw [Good.weight h hf hf' e]
  congr 1
  refine Finset.sum_congr rfl fun l _ => ?_
  rw [dr_opp e, gTensor_anti alpha h hs j.2]
  ring

theorem fixed_tot (alpha : Matrix (Fin 3) (Fin 3) ℝ) (hS : g.S.Pos) (h : MapOK g.S n (F.map Prod.fst)) (i j : Mode n) :
    ((fixed alpha g F).map fun f => f.2 i j).sum = (F.map fun f => f.2 i j).sum + (dFsum alpha g F i j + msum (dFsum alpha g F) i j) := by
  have hp : (prodSup g.S : ℝ) ≠ 0 := by exact_mod_cast (prodSup_pos hS).ne'
  unfold fixed
  rw [List.map_map]
  show (F.map fun f => f.2 i j + dF alpha g F f.1 i j + dF0 alpha g F i j * f.1.w i.1 j.1).sum = _
  rw [lsum_add, lsum_add, lsum_mul', weight_total hS h, dF0_eq]
  have : 1 / (prodSup g.S : ℝ) * msum (dFsum alpha g F) i j * (prodSup g.S : ℝ) = msum (dFsum alpha g F) i j := by field_simp
  rw [this]
  unfold dFsum
  ring

theorem fixed_sum (alpha : Matrix (Fin 3) (Fin 3) ℝ) (hS : g.S.Pos) (h : MapOK g.S n (F.map Prod.fst)) (hs : ForceSum F) : ForceSum (fixed alpha g F) := by
  intro i d
  have hs := hs i d
  rw [lsum_sum, lsum_sum] at hs ⊢
  simp only [fixed_tot alpha hS h]
  constructor
  · rw [Finset.sum_add_distrib, hs.1, msum_row, zero_add]
  · rw [Finset.sum_add_distrib, hs.2, msum_col, zero_add]

theorem msum_dFsum (alpha : Matrix (Fin 3) (Fin 3) ℝ) (a b : Fin n) (i j : Fin 3) :
    msum (dFsum alpha g F) (a, i) (b, j) = ∑ l, (vMean g F l - vRow g F a l - vCol g F b l) * gTensor alpha g F i j l := by
  have h1 : ∀ f : Fin n → Fin 3 → ℝ, ∑ b, ∑ l, f b l = ∑ l, ∑ b, f b l := fun f => Finset.sum_comm
  unfold msum vMean vRow vCol
  simp only [dFsum_eq, sub_mul, Finset.sum_sub_distrib, Finset.mul_sum, Finset.sum_mul]
  simp only [h1]
  congr 1
  · congr 1
    · refine Finset.sum_congr rfl fun l _ => Finset.sum_congr rfl fun a _ => Finset.sum_congr rfl fun b _ => by ring
    · refine Finset.sum_congr rfl fun l _ => Finset.sum_congr rfl fun a _ => by ring
  · refine Finset.sum_congr rfl fun l _ => Finset.sum_congr rfl fun a _ => by ring

theorem err_fixed (alpha : Matrix (Fin 3) (Fin 3) ℝ) (i j l : Fin 3) :
    err g (fixed alpha g F) i j l = err g F i j l + ∑ l', (rho g F + tCorr g F) l l' * gTensor alpha g F i j l' := by
  have h1 : ∀ f : Fin n → Fin 3 → ℝ, ∑ b, ∑ l, f b l = ∑ l, ∑ b, f b l := fun f => Finset.sum_comm
  have e0 : err g (fixed alpha g F) i j l = err g F i j l + (F.map fun f => ∑ a, ∑ b, dr g f.1 a b l * dF alpha g F f.1 (a, i) (b, j)).sum
      + (F.map fun f => ∑ a, ∑ b, (f.1.w a b * dr g f.1 a b l) * dF0 alpha g F (a, i) (b, j)).sum := by
    unfold err fixed
    rw [List.map_map, ← lsum_add, ← lsum_add]
    refine lsum_congr fun f _ => ?_
    simp only [← Finset.sum_add_distrib]
    refine Finset.sum_congr rfl fun a _ => Finset.sum_congr rfl fun b _ => ?_
    show dr g f.1 a b l * (f.2 (a, i) (b, j) + dF alpha g F f.1 (a, i) (b, j) + dF0 alpha g F (a, i) (b, j) * f.1.w a b) = _
    ring
  have e1 : (F.map fun f => ∑ a, ∑ b, dr g f.1 a b l * dF alpha g F f.1 (a, i) (b, j)).sum = ∑ l', rho g F l l' * gTensor alpha g F i j l' := by
    unfold rho dF
    simp only [Matrix.of_apply, ← lsum_mul]
    rw [← lsum_sum]
    refine lsum_congr fun f _ => ?_
    simp only [Finset.mul_sum, Finset.sum_mul, h1]
    refine Finset.sum_congr rfl fun l' _ => Finset.sum_congr rfl fun a _ => Finset.sum_congr rfl fun b _ => by ring
  have e2 : (F.map fun f => ∑ a, ∑ b, (f.1.w a b * dr g f.1 a b l) * dF0 alpha g F (a, i) (b, j)).sum = ∑ l', tCorr g F l l' * gTensor alpha g F i j l' := by
    rw [lsum_sum]
    simp only [lsum_sum, lsum_mul]
    unfold tCorr
    simp only [dF0_eq, msum_dFsum, Matrix.of_apply]
    simp only [Finset.mul_sum, Finset.sum_mul, h1]
    refine Finset.sum_congr rfl fun l' _ => Finset.sum_congr rfl fun a _ => Finset.sum_congr rfl fun b _ => ?_
    unfold vSum
    ring
  rw [e0, e1, e2, add_assoc, ← Finset.sum_add_distrib]
  congr 1
  refine Finset.sum_congr rfl fun l' _ => ?_
  rw [Matrix.add_apply]
  ring

/-! ### Truncated directions -/

theorem zsum_zero (z : Fin n → ℝ) {Y : Fin n → Fin n → ℝ} (h1 : ∀ a, ∑ b, Y a b = 0) (h2 : ∀ b, ∑ a, Y a b = 0) : ∑ a, ∑ b, (z b - z a) * Y a b = 0 := by
  simp only [sub_mul, Finset.sum_sub_distrib]
  have e1 : ∑ a, ∑ b, z b * Y a b = 0 := by
    rw [Finset.sum_comm]
    refine Finset.sum_eq_zero fun b _ => ?_
    rw [← Finset.mul_sum, h2, mul_zero]
  have e2 : ∑ a, ∑ b, z a * Y a b = 0 := by
    refine Finset.sum_eq_zero fun a _ => ?_
    rw [← Finset.mul_sum, h1, mul_zero]
  rw [e1, e2, sub_zero]

/-- The part of the first moment that is not removed by the sum rule. -/
def vNet (g : Geom n) (F : Forces n) (a b : Fin n) (l : Fin 3) : ℝ := vSum g F a b l + (vMean g F l - vRow g F a l - vCol g F b l)

theorem vNet_sums (l : Fin 3) : (∀ a, ∑ b, vNet g F a b l = 0) ∧ (∀ b, ∑ a, vNet g F a b l = 0) := by
  constructor
  · intro a
    have hn : (n : ℝ) ≠ 0 := by have := a.pos; positivity
    unfold vNet vMean vRow vCol
    simp only [Finset.sum_add_distrib, Finset.sum_sub_distrib, Finset.sum_const, Finset.card_univ, Fintype.card_fin, nsmul_eq_mul, ← Finset.mul_sum]
    rw [Finset.sum_comm (f := fun b a => vSum g F a b l)]
    field_simp
    ring
  · intro b
    have hn : (n : ℝ) ≠ 0 := by have := b.pos; positivity
    unfold vNet vMean vRow vCol
    simp only [Finset.sum_add_distrib, Finset.sum_sub_distrib, Finset.sum_const, Finset.card_univ, Fintype.card_fin, nsmul_eq_mul, ← Finset.mul_sum]
    field_simp
    ring

theorem rhoT_axis (hS : g.S.Pos) (h : MapOK g.S n (F.map Prod.fst)) {l : Fin 3} (hl : AxisOf g F l) (l' : Fin 3) : (rho g F + tCorr g F) l l' = 0 := by
  obtain ⟨z, hz⟩ := hl
  have hp : (prodSup g.S : ℝ) ≠ 0 := by exact_mod_cast (prodSup_pos hS).ne'
  have e1 : rho g F l l' = ∑ a, ∑ b, (z b - z a) * vSum g F a b l' := by
    unfold rho vSum
    simp only [Matrix.of_apply, ← lsum_mul', lsum_sum]
    refine Finset.sum_congr rfl fun a _ => Finset.sum_congr rfl fun b _ => lsum_congr fun f hf => ?_
    rw [hz f hf]
    ring
  have e2 : ∀ a b, vSum g F a b l = (prodSup g.S : ℝ) * (z b - z a) := by
    intro a b
    rw [← weight_total hS h a b, ← lsum_mul]
    exact lsum_congr fun f hf => by rw [hz f hf]
  have e3 : tCorr g F l l' = ∑ a, ∑ b, (z b - z a) * (vMean g F l' - vRow g F a l' - vCol g F b l') := by
    unfold tCorr
    rw [Matrix.of_apply]
    refine Finset.sum_congr rfl fun a _ => Finset.sum_congr rfl fun b _ => ?_
    rw [e2]
    field_simp
  rw [Matrix.add_apply, e1, e3]
  simp only [← Finset.sum_add_distrib, ← mul_add]
  exact zsum_zero z (vNet_sums l').1 (vNet_sums l').2

theorem err_axis (hs : ForceSum F) {l : Fin 3} (hl : AxisOf g F l) (i j : Fin 3) : err g F i j l = 0 := by
  obtain ⟨z, hz⟩ := hl
  have e : err g F i j l = ∑ a, ∑ b, (z b - z a) * (F.map fun f => f.2 (a, i) (b, j)).sum := by
    unfold err
    simp only [← lsum_mul', lsum_sum]
    refine Finset.sum_congr rfl fun a _ => Finset.sum_congr rfl fun b _ => lsum_congr fun f hf => ?_
    rw [hz f hf]
  rw [e]
  refine zsum_zero z (fun a => ?_) (fun b => ?_)
  · have := (hs (a, i) j).1
    rwa [lsum_sum] at this
  · have := (hs (b, j) i).2
    rwa [lsum_sum] at this

theorem err_fix_zero (hS : g.S.Pos) (h : MapOK g.S n (F.map Prod.fst)) (hs : ForceSum F) (hax : ∀ l, g.trunc l = true → AxisOf g F l)
    (hdet : (alphaInv g F).det ≠ 0) (i j l : Fin 3) : err g (fixed (alphaInv g F)⁻¹ g F) i j l = 0 := by
  rw [err_fixed]
  by_cases hl : g.trunc l = true
  · rw [err_axis hs (hax l hl), Finset.sum_eq_zero fun l' _ => by rw [rhoT_axis hS h (hax l hl), zero_mul], add_zero]
  · have e1 : ∀ l', (rho g F + tCorr g F) l l' = alphaInv g F l l' := by
      intro l'
      unfold alphaInv
      rw [Matrix.of_apply, if_neg fun h => hl h.2]
    simp only [e1]
    have e2 : (fun l => gTensor (alphaInv g F)⁻¹ g F i j l) = -((alphaInv g F)⁻¹ *ᵥ fun l => err g F i j l) := by
      funext l
      rfl
    have e3 : ∑ l', alphaInv g F l l' * gTensor (alphaInv g F)⁻¹ g F i j l' = (alphaInv g F *ᵥ fun l => gTensor (alphaInv g F)⁻¹ g F i j l) l := rfl
    rw [e3, e2, Matrix.mulVec_neg, Matrix.mulVec_mulVec, Matrix.mul_nonsing_inv _ (isUnit_iff_ne_zero.2 hdet), Matrix.one_mulVec]
    simp

theorem gammaFix_some {F' : Forces n} (h : gammaFix g F = some F') : (alphaInv g F).det ≠ 0 ∧ F' = fixed (alphaInv g F)⁻¹ g F := by
  unfold gammaFix at h
  by_cases hd : (alphaInv g F).det = 0
  · rw [if_pos hd] at h; exact absurd h (by simp)
  · rw [if_neg hd] at h
    exact ⟨hd, (Option.some.inj h).symm⟩

/-- A direction that is not truncated and along which vectors between atoms do not depend on the cell: no finite result. -/
theorem gammaFix_none (hS : g.S.Pos) (h : MapOK g.S n (F.map Prod.fst)) {l : Fin 3} (hl : AxisOf g F l) (ht : g.trunc l = false) : gammaFix g F = none := by
  unfold gammaFix
  rw [if_pos]
  apply Matrix.det_eq_zero_of_row_eq_zero l
  intro l'
  unfold alphaInv
  rw [Matrix.of_apply, if_neg (by rw [ht]; simp), rhoT_axis hS h hl]

/-! ### Solvability -/

/-- `row+column-mean` of the first moment, per cell. -/
def hPart (g : Geom n) (F : Forces n) (a b : Fin n) (l : Fin 3) : ℝ := 1 / (prodSup g.S : ℝ) * (vRow g F a l + vCol g F b l - vMean g F l)

theorem hPart_orth (l l' : Fin 3) : ∑ a, ∑ b, hPart g F a b l * vNet g F a b l' = 0 := by
  obtain ⟨h1, h2⟩ := vNet_sums (g := g) (F := F) l'
  have e1 : ∑ a, ∑ b, vRow g F a l * vNet g F a b l' = 0 := by
    refine Finset.sum_eq_zero fun a _ => ?_
    rw [← Finset.mul_sum, h1, mul_zero]
  have e2 : ∑ a, ∑ b, vCol g F b l * vNet g F a b l' = 0 := by
    rw [Finset.sum_comm]
    refine Finset.sum_eq_zero fun b _ => ?_
    rw [← Finset.mul_sum, h2, mul_zero]
  have e3 : ∑ a, ∑ b, vMean g F l * vNet g F a b l' = 0 := by
    refine Finset.sum_eq_zero fun a _ => ?_
    rw [← Finset.mul_sum, h1, mul_zero]
  have : ∑ a, ∑ b, hPart g F a b l * vNet g F a b l' = 1 / (prodSup g.S : ℝ) * (∑ a, ∑ b, vRow g F a l * vNet g F a b l' + ∑ a, ∑ b, vCol g F b l * vNet g F a b l'
      - ∑ a, ∑ b, vMean g F l * vNet g F a b l') := by
    simp only [Finset.mul_sum, ← Finset.sum_add_distrib, ← Finset.sum_sub_distrib]
    refine Finset.sum_congr rfl fun a _ => Finset.sum_congr rfl fun b _ => ?_
    unfold hPart
    ring
  rw [this, e1, e2, e3]
  ring

/-- The matrix is a weighted sum of squares. -/
theorem rhoT_eq (hS : g.S.Pos) (h : MapOK g.S n (F.map Prod.fst)) (l l' : Fin 3) : (rho g F + tCorr g F) l l' =
    (F.map fun f => ∑ a, ∑ b, f.1.w a b * ((dr g f.1 a b l - hPart g F a b l) * (dr g f.1 a b l' - hPart g F a b l'))).sum := by
  have hp : (prodSup g.S : ℝ) ≠ 0 := by exact_mod_cast (prodSup_pos hS).ne'
  have e0 : (F.map fun f => ∑ a, ∑ b, f.1.w a b * ((dr g f.1 a b l - hPart g F a b l) * (dr g f.1 a b l' - hPart g F a b l'))).sum
      = rho g F l l' + ∑ a, ∑ b, (- hPart g F a b l * vSum g F a b l' - vSum g F a b l * hPart g F a b l' + prodSup g.S * (hPart g F a b l * hPart g F a b l')) := by
    unfold rho
    simp only [Matrix.of_apply, lsum_sum, ← Finset.sum_add_distrib]
    refine Finset.sum_congr rfl fun a _ => Finset.sum_congr rfl fun b _ => ?_
    rw [← weight_total hS h a b]
    unfold vSum
    rw [show ∀ x y z w : ℝ, x + (y - z + w) = x + y + -z + w by intros; ring, ← lsum_mul', ← lsum_mul, ← lsum_neg, ← lsum_mul, ← lsum_add, ← lsum_add, ← lsum_add]
    exact lsum_congr fun f _ => by ring
  have e1 : ∀ a b l, vSum g F a b l = vNet g F a b l + prodSup g.S * hPart g F a b l := by
    intro a b l
    unfold vNet hPart
    field_simp
    ring
  have e2 : tCorr g F l l' = -∑ a, ∑ b, vSum g F a b l * hPart g F a b l' := by
    unfold tCorr hPart
    rw [Matrix.of_apply, ← Finset.sum_neg_distrib]
    refine Finset.sum_congr rfl fun a _ => ?_
    rw [← Finset.sum_neg_distrib]
    refine Finset.sum_congr rfl fun b _ => ?_
    ring
  have e3 : ∑ a, ∑ b, (- hPart g F a b l * vSum g F a b l' - vSum g F a b l * hPart g F a b l' + prodSup g.S * (hPart g F a b l * hPart g F a b l'))
      = -∑ a, ∑ b, vSum g F a b l * hPart g F a b l' - ∑ a, ∑ b, hPart g F a b l * vNet g F a b l' := by
    simp only [← Finset.sum_neg_distrib, ← Finset.sum_sub_distrib]
    refine Finset.sum_congr rfl fun a _ => Finset.sum_congr rfl fun b _ => ?_
    rw [e1 a b l']
    ring
  rw [e0, e3, hPart_orth, Matrix.add_apply, e2]
  ring

/-- In every direction that is not truncated, some pair of atoms has two images (with nonzero weights) at different positions. -/
def Spread (g : Geom n) (F : Forces n) : Prop :=
  (∀ f ∈ F, ∀ a b : Fin n, 0 ≤ f.1.w a b) ∧
  ∀ v : V3 ℝ, (∀ l, g.trunc l = true → v l = 0) → v ≠ 0 → ∃ f ∈ F, ∃ f' ∈ F, ∃ a b : Fin n, 0 < f.1.w a b ∧ 0 < f'.1.w a b ∧
    ∑ l, v l * dr g f.1 a b l ≠ ∑ l, v l * dr g f'.1 a b l

theorem lsum_nonneg_zero {α : Type*} {F : List α} {f : α → ℝ} (h : ∀ x ∈ F, 0 ≤ f x) (h0 : (F.map f).sum = 0) : ∀ x ∈ F, f x = 0 := by
  induction F with
  | nil => simp
  | cons a F ih =>
    rw [List.map_cons, List.sum_cons] at h0
    have h1 := h a (by simp)
    have h2 : 0 ≤ (F.map f).sum := List.sum_nonneg (by
      intro x hx
      obtain ⟨y, hy, rfl⟩ := List.mem_map.1 hx
      exact h y (by simp [hy]))
    intro x hx
    rcases List.mem_cons.1 hx with rfl | hx
    · linarith
    · exact ih (fun x hx => h x (by simp [hx])) (by linarith) x hx

theorem solvable (hS : g.S.Pos) (h : MapOK g.S n (F.map Prod.fst)) (hax : ∀ l, g.trunc l = true → AxisOf g F l) (hsp : Spread g F) :
    (alphaInv g F).det ≠ 0 := by
  intro hd
  obtain ⟨v, hv, hv0⟩ := Matrix.exists_mulVec_eq_zero_iff.2 hd
  have ht : ∀ l, g.trunc l = true → v l = 0 := by
    intro l hl
    have := congrFun hv0 l
    have e : ∀ l', alphaInv g F l l' = if l = l' then 1 else 0 := by
      intro l'
      unfold alphaInv
      rw [Matrix.of_apply]
      by_cases hll : l = l'
      · rw [if_pos ⟨hll, hl⟩, if_pos hll]
      · rw [if_neg fun h => hll h.1, if_neg hll, rhoT_axis hS h (hax l hl)]
    simp only [Matrix.mulVec, dotProduct, e] at this
    simpa using this
  have hQ : ∑ l, ∑ l', v l * ((rho g F + tCorr g F) l l' * v l') = 0 := by
    refine Finset.sum_eq_zero fun l _ => ?_
    by_cases hl : g.trunc l = true
    · simp [ht l hl]
    · have e : ∀ l', (rho g F + tCorr g F) l l' = alphaInv g F l l' := by
        intro l'
        unfold alphaInv
        rw [Matrix.of_apply, if_neg fun h => hl h.2]
      simp only [e, ← Finset.mul_sum]
      have := congrFun hv0 l
      simp only [Matrix.mulVec, dotProduct] at this
      rw [this]
      simp
  have hsq : ∑ l, ∑ l', v l * ((rho g F + tCorr g F) l l' * v l') =
      (F.map fun f => ∑ a, ∑ b, f.1.w a b * (∑ l, v l * dr g f.1 a b l - ∑ l, v l * hPart g F a b l) ^ 2).sum := by
    simp only [rhoT_eq hS h, ← lsum_mul, ← lsum_mul', ← lsum_sum]
    refine lsum_congr fun f _ => ?_
    have h1 : ∀ f : Fin n → Fin 3 → ℝ, ∑ b, ∑ l, f b l = ∑ l, ∑ b, f b l := fun f => Finset.sum_comm
    simp only [← Finset.sum_sub_distrib, sq, Finset.mul_sum, Finset.sum_mul, h1]
    refine Finset.sum_congr rfl fun l _ => Finset.sum_congr rfl fun l' _ => Finset.sum_congr rfl fun a _ => Finset.sum_congr rfl fun b _ => ?_
    ring
  rw [hsq] at hQ
  have hz := lsum_nonneg_zero (fun f hf => Finset.sum_nonneg fun a _ => Finset.sum_nonneg fun b _ => mul_nonneg (hsp.1 f hf a b) (sq_nonneg _)) hQ
  have hz' : ∀ f ∈ F, ∀ a b : Fin n, 0 < f.1.w a b → ∑ l, v l * dr g f.1 a b l = ∑ l, v l * hPart g F a b l := by
    intro f hf a b hw
    have h0 := hz f hf
    have h1 := (Finset.sum_eq_zero_iff_of_nonneg fun a _ => Finset.sum_nonneg fun b _ => mul_nonneg (hsp.1 f hf a b) (sq_nonneg _)).1 h0 a (Finset.mem_univ _)
    have h2 := (Finset.sum_eq_zero_iff_of_nonneg fun b _ => mul_nonneg (hsp.1 f hf a b) (sq_nonneg _)).1 h1 b (Finset.mem_univ _)
    rcases mul_eq_zero.1 h2 with h3 | h3
    · exact absurd h3 hw.ne'
    · have := pow_eq_zero_iff (two_ne_zero) |>.1 h3
      linarith
  obtain ⟨f, hf, f', hf', a, b, hw, hw', hne⟩ := hsp.2 v ht hv
  exact hne ((hz' f hf a b hw).trans (hz' f' hf' a b hw').symm)

/-! ### The acoustic force -/

theorem acoustic_zero (hs : ForceSum F) (i j : Fin 3) : acoustic g F 0 i j = 0 := by
  have h0 : cis 0 = 1 := by rw [cis_exp]; simp
  have e : acoustic g F 0 i j = (((F.map fun f => ∑ a, ∑ b, f.2 (a, i) (b, j)).sum : ℝ) : ℂ) := by
    unfold acoustic
    simp only [Pi.zero_apply, zero_mul, Finset.sum_const_zero, h0, mul_one]
    clear hs
    induction F with
    | nil => simp
    | cons f F ih => simp only [List.map_cons, List.sum_cons, ih]; push_cast; rfl
  rw [e, lsum_sum, Finset.sum_eq_zero fun a _ => (hs (a, i) j).1]
  simp

theorem acoustic_deriv (q : V3 ℝ) (i j : Fin 3) :
    HasDerivAt (fun t : ℝ => acoustic g F (fun l => t * q l) i j) (Complex.I * ((∑ l, q l * err g F i j l : ℝ) : ℂ)) 0 := by
  have hd : ∀ (y s : ℝ), HasDerivAt (fun t : ℝ => (y : ℂ) * cis (t * s)) (Complex.I * ((y * s : ℝ) : ℂ)) 0 := by
    intro y s
    have h1 : HasDerivAt (fun t : ℝ => ((t * s : ℝ) : ℂ) * Complex.I) ((s : ℂ) * Complex.I) 0 := by
      have := ((hasDerivAt_id (0 : ℝ)).mul_const s).ofReal_comp
      simpa using this.mul_const Complex.I
    have h2 := (h1.cexp).const_mul (y : ℂ)
    simp only [cis_exp]
    refine h2.congr_deriv ?_
    push_cast
    simp
    ring
  have hsum : ∀ (f : CellMap.Entry × RMat n) (a b : Fin n) (t : ℝ), ∑ l, t * q l * dr g f.1 a b l = t * ∑ l, q l * dr g f.1 a b l := by
    intro f a b t
    rw [Finset.mul_sum]
    exact Finset.sum_congr rfl fun l _ => by ring
  have hf : ∀ f : CellMap.Entry × RMat n, HasDerivAt (fun t : ℝ => ∑ a, ∑ b, (f.2 (a, i) (b, j) : ℂ) * cis (∑ l, t * q l * dr g f.1 a b l))
      (Complex.I * ((∑ a, ∑ b, f.2 (a, i) (b, j) * ∑ l, q l * dr g f.1 a b l : ℝ) : ℂ)) 0 := by
    intro f
    have : HasDerivAt (fun t : ℝ => ∑ a, ∑ b, (f.2 (a, i) (b, j) : ℂ) * cis (∑ l, t * q l * dr g f.1 a b l))
        (∑ a, ∑ b, Complex.I * ((f.2 (a, i) (b, j) * ∑ l, q l * dr g f.1 a b l : ℝ) : ℂ)) 0 := by
      refine HasDerivAt.fun_sum fun a _ => HasDerivAt.fun_sum fun b _ => ?_
      simp only [hsum]
      exact hd _ _
    refine this.congr_deriv ?_
    simp only [Complex.ofReal_sum, Finset.mul_sum]
  have hl : HasDerivAt (fun t : ℝ => acoustic g F (fun l => t * q l) i j)
      (Complex.I * (((F.map fun f => ∑ a, ∑ b, f.2 (a, i) (b, j) * ∑ l, q l * dr g f.1 a b l).sum : ℝ) : ℂ)) 0 := by
    unfold acoustic
    induction F with
    | nil => simpa using hasDerivAt_const (0 : ℝ) (0 : ℂ)
    | cons f F ih =>
      simp only [List.map_cons, List.sum_cons]
      refine ((hf f).add ih).congr_deriv ?_
      push_cast
      ring
  refine hl.congr_deriv ?_
  congr 2
  unfold err
  simp only [← lsum_mul']
  rw [← lsum_sum]
  refine lsum_congr fun f _ => ?_
  have h1 : ∀ f : Fin n → Fin 3 → ℝ, ∑ b, ∑ l, f b l = ∑ l, ∑ b, f b l := fun f => Finset.sum_comm
  simp only [Finset.mul_sum, h1]
  refine Finset.sum_congr rfl fun l _ => Finset.sum_congr rfl fun a _ => Finset.sum_congr rfl fun b _ => by ring

theorem soundOK (hs : ForceSum F) (h : ∀ i j l, err g F i j l = 0) : SoundOK g F := by
  intro i j
  refine ⟨acoustic_zero hs i j, fun q => ?_⟩
  have := acoustic_deriv (g := g) (F := F) q i j
  refine this.congr_deriv ?_
  simp [h]

end
end Jdftx.Phonon
