import Verif.Lemmas.FindGroup
import Mathlib.Algebra.BigOperators.Group.Finset.Piecewise
import Mathlib.Data.Finset.Card
import Mathlib.Algebra.BigOperators.Group.List.Lemmas

/-!
# Lemmas for C90: the refined operations form a group
-/
namespace Jdftx.FindGroup
open Jdftx.M3 Jdftx.PL Jdftx.Sym
noncomputable section
open Classical

variable {c : Cfg} {sp : Species} {rots : List (Mat Int)} {κ : ℝ}

/-- Deviation of the image of an atom from the atom it is identified with. -/
def dev (G : Op ℝ → Species → Nat → Nat) (op : Op ℝ) (sp : Species) (a : Nat) : V3 ℝ :=
  wrapHalf fun k => op.applyReal (sp.pos a) k - sp.pos (G op sp a) k

/-- A list of operations with the images of the atoms. -/
structure Fam (c : Cfg) (rots : List (Mat Int)) (κ : ℝ) (sym : List (Op ℝ)) (G : Op ℝ → Species → Nat → Nat) : Prop where
  rot_mem : ∀ op ∈ sym, op.rot ∈ rots
  lt : ∀ op ∈ sym, ∀ sp ∈ c.species, ∀ a < sp.n, G op sp a < sp.n
  adm : ∀ op ∈ sym, ∀ sp ∈ c.species, ∀ a < sp.n, admissible c sp op.rot a (G op sp a)
  takes : ∀ op ∈ sym, ∀ sp ∈ c.species, ∀ a < sp.n, Takes (c.thr / 11) sp op a (G op sp a)
  balanced : ∀ op ∈ sym, ∀ k, atomSum c.species (fun sp a => dev G op sp a k) = 0
  small : ∀ op ∈ sym, ∀ k, |op.a k| < 1
  complete : ∀ op : Op ℝ, op.rot ∈ rots → ∀ δ, δ ≤ (κ + 1) * c.thr / 4 → MapsCrystal δ c op →
    ∃ r ∈ sym, r.rot = op.rot ∧ NearLattice (δ + c.thr / 11) fun k => r.a k - op.a k
  distinct : sym.Pairwise fun p q => p.rot = q.rot → ¬NearLattice (3 * (κ + 1) * c.thr / 4) fun k => p.a k - q.a k

theorem atomSum_congr {l : List Species} {f f' : Species → Nat → ℝ} (h : ∀ sp ∈ l, ∀ a < sp.n, f sp a = f' sp a) :
    atomSum l f = atomSum l f' := by
  unfold atomSum
  congr 1
  refine List.map_congr_left fun sp hsp => Finset.sum_congr rfl fun a ha => h sp hsp a (Finset.mem_range.1 ha)

theorem atomSum_add (l : List Species) (f f' : Species → Nat → ℝ) :
    atomSum l (fun sp a => f sp a + f' sp a) = atomSum l f + atomSum l f' := by
  unfold atomSum
  rw [← List.sum_map_add]
  congr 1
  exact List.map_congr_left fun sp _ => Finset.sum_add_distrib

theorem atomSum_smul (l : List Species) (x : ℝ) (f : Species → Nat → ℝ) :
    atomSum l (fun sp a => x * f sp a) = x * atomSum l f := by
  unfold atomSum
  induction l with
  | nil => simp
  | cons sp l ih => rw [List.map_cons, List.sum_cons, ih, List.map_cons, List.sum_cons, ← Finset.mul_sum]; ring

theorem atomSum_const (l : List Species) (x : ℝ) : atomSum l (fun _ _ => x) = nAtoms l * x := by
  induction l with
  | nil => simp [atomSum, nAtoms]
  | cons sp l ih =>
    have e1 : atomSum (sp :: l) (fun _ _ => x) = sp.n * x + atomSum l fun _ _ => x := by simp [atomSum]
    have e2 : ((nAtoms (sp :: l) : Nat) : ℝ) = (sp.n : ℝ) + (nAtoms l : ℝ) := by simp [nAtoms]
    rw [e1, e2, ih]; ring

theorem atomSum_neg (l : List Species) (f : Species → Nat → ℝ) : atomSum l (fun sp a => - f sp a) = - atomSum l f := by
  have := atomSum_smul l (-1) f
  simpa using this

theorem atomSum_mulMV (l : List Species) (M : Mat ℝ) (v : Species → Nat → V3 ℝ) (i : Fin 3) :
    atomSum l (fun sp a => mulMV M (v sp a) i) = mulMV M (fun k => atomSum l fun sp a => v sp a k) i := by
  simp only [mulMV_apply, atomSum_add, atomSum_smul]

/-- Reindexing by a permutation of the atoms of each species. -/
theorem sum_range_inj {n : Nat} (g : Nat → Nat) (hlt : ∀ a < n, g a < n) (hinj : ∀ a < n, ∀ b < n, g a = g b → a = b)
    (f : Nat → ℝ) : ∑ a ∈ Finset.range n, f (g a) = ∑ a ∈ Finset.range n, f a := by
  have him : (Finset.range n).image g = Finset.range n := by
    apply Finset.eq_of_subset_of_card_le
    · intro x hx
      obtain ⟨a, ha, rfl⟩ := Finset.mem_image.1 hx
      exact Finset.mem_range.2 (hlt a (Finset.mem_range.1 ha))
    · rw [Finset.card_image_of_injOn]
      intro a ha b hb h
      exact hinj a (Finset.mem_range.1 ha) b (Finset.mem_range.1 hb) h
  conv_rhs => rw [← him]
  rw [Finset.sum_image]
  intro a ha b hb h
  exact hinj a (Finset.mem_range.1 ha) b (Finset.mem_range.1 hb) h

/-- A refined operation has balanced deviations. -/
theorem Good.dev_eq (h : Sharp c rots κ) (hg : PointGroup rots) (hn : 0 < nAtoms c.species) {op : Op ℝ} {t : V3 ℝ}
    {G : Op ℝ → Species → Nat → Nat} (hgood : Good c op t (G op)) (hsp : sp ∈ c.species) {a : Nat} (ha : a < sp.n) (k : Fin 3) :
    dev G op sp a k = (op.a k - t k) - corr op.rot t (G op) sp a k := by
  have hthr := h.thr_pos
  have hh := h.thr_half hg
  norm_num at hh
  obtain ⟨n, hn'⟩ := wrapHalf_int fun k => offset sp op.rot a (G op sp a) k - t k
  refine wrapHalf_eq (w := fun k => (op.a k - t k) - corr op.rot t (G op) sp a k) k (- n k) ?_ ?_
  · simp only [corr]
    rw [hn' k]
    simp only [Op.applyReal, offset]
    push_cast
    ring
  · have h1 := abs_lt.1 (hgood.close h hg hn k)
    have h2 := abs_lt.1 (wrapHalf_near (by linarith) (hgood.near sp hsp a ha) k)
    have h3 : corr op.rot t (G op) sp a k = wrapHalf (fun k => offset sp op.rot a (G op sp a) k - t k) k := rfl
    rw [abs_lt]
    constructor <;> linarith

theorem Good.balanced (h : Sharp c rots κ) (hg : PointGroup rots) (hn : 0 < nAtoms c.species) {op : Op ℝ} {t : V3 ℝ}
    {G : Op ℝ → Species → Nat → Nat} (hgood : Good c op t (G op)) (k : Fin 3) :
    atomSum c.species (fun sp a => dev G op sp a k) = 0 := by
  rw [atomSum_congr fun sp hsp a ha => hgood.dev_eq h hg hn hsp ha k]
  simp only [sub_eq_add_neg]
  rw [atomSum_add, atomSum_const, atomSum_neg]
  have hN : (nAtoms c.species : ℝ) ≠ 0 := by exact_mod_cast hn.ne'
  have := hgood.a_eq k
  have e : op.a k + -t k = (atomSum c.species fun sp a => corr op.rot t (G op) sp a k) / (nAtoms c.species : ℝ) := by
    rw [this]; ring
  rw [e]
  field_simp
  ring

/-- The operations found for a list of rotations. -/
theorem find_spec (h : Sharp c rots κ) (hg : PointGroup rots) (hm : MeshOk c) {sp0 : Species} {l : List Species}
    (hl : c.species = sp0 :: l) (h0 : 0 < sp0.n) (rs : List (Mat Int)) (hrs : ∀ M ∈ rs, M ∈ rots) (hnd : rs.Nodup) :
    ∃ ops, findSpaceGroup c rs = .ok ops ∧ (∀ op ∈ ops, op.rot ∈ rs ∧ ∃ t g, Good c op t g) ∧
      (∀ op : Op ℝ, op.rot ∈ rs → ∀ δ, δ ≤ (κ + 1) * c.thr / 4 → MapsCrystal δ c op →
        ∃ r ∈ ops, r.rot = op.rot ∧ NearLattice (δ + c.thr / 11) fun k => r.a k - op.a k) ∧
      ops.Pairwise fun p q => p.rot = q.rot → ¬NearLattice (3 * (κ + 1) * c.thr / 4) fun k => p.a k - q.a k := by
  induction rs with
  | nil => exact ⟨[], rfl, by simp, by simp, List.Pairwise.nil⟩
  | cons rot rs ih =>
    rw [List.nodup_cons] at hnd
    obtain ⟨ops, e, h1, h2, h3⟩ := withRot_spec h hg hm (hrs rot List.mem_cons_self) hl h0
    obtain ⟨ops', e', h1', h2', h3'⟩ := ih (fun M hM => hrs M (List.mem_cons_of_mem _ hM)) hnd.2
    refine ⟨ops ++ ops', by unfold findSpaceGroup; simp only [e, e'], fun op hop => ?_, fun op hop δ hδ hmaps => ?_, ?_⟩
    · rcases List.mem_append.1 hop with hop | hop
      · exact ⟨by rw [(h1 op hop).1]; exact List.mem_cons_self, (h1 op hop).2⟩
      · exact ⟨List.mem_cons_of_mem _ (h1' op hop).1, (h1' op hop).2⟩
    · rcases List.mem_cons.1 hop with hr | hr
      · obtain ⟨r, hr', hn⟩ := h2 op.a δ hδ (by rw [← hr]; exact hmaps)
        exact ⟨r, List.mem_append_left _ hr', by rw [(h1 r hr').1, hr], hn⟩
      · obtain ⟨r, hr', e, hn⟩ := h2' op hr δ hδ hmaps
        exact ⟨r, List.mem_append_right _ hr', e, hn⟩
    · rw [List.pairwise_append]
      refine ⟨List.Pairwise.imp (fun {a b} h (_ : a.rot = b.rot) => h) h3, h3', fun p hp q hq e => ?_⟩
      exact absurd (by rw [← (h1 p hp).1, e]; exact (h1' q hq).1) hnd.1

/-- The family of operations found. -/
theorem find_fam (h : Sharp c rots κ) (hg : PointGroup rots) (hm : MeshOk c) {sp0 : Species} {l : List Species}
    (hl : c.species = sp0 :: l) (h0 : 0 < sp0.n) :
    ∃ ops G, findSpaceGroup c rots = .ok ops ∧ Fam c rots κ ops G := by
  have hn : 0 < nAtoms c.species := nAtoms_pos_of_mem (by rw [hl]; exact List.mem_cons_self) h0
  obtain ⟨ops, e, h1, h2, h3⟩ := find_spec h hg hm hl h0 rots (fun _ h => h) hg.nodup
  have : ∀ op : Op ℝ, ∃ t g, op ∈ ops → Good c op t g := by
    intro op
    by_cases ho : op ∈ ops
    · obtain ⟨t, g, hgood⟩ := (h1 op ho).2
      exact ⟨t, g, fun _ => hgood⟩
    · exact ⟨fun _ => 0, fun _ _ => 0, fun h => absurd h ho⟩
  choose T G hG using this
  have hthr := h.thr_pos
  have hh := h.thr_half hg
  norm_num at hh
  exact ⟨ops, G, e, {
    rot_mem := fun op ho => (h1 op ho).1
    lt := fun op ho => (hG op ho).lt
    adm := fun op ho => (hG op ho).adm
    takes := fun op ho sp hsp a ha => (hG op ho).takes h hg hn hsp ha
    balanced := fun op ho k => (hG op ho).balanced h hg hn k
    small := fun op ho k => by
      have b1 := abs_lt.1 ((hG op ho).close h hg hn k)
      have b2 := abs_le.1 ((hG op ho).small k)
      rw [abs_lt]
      constructor <;> linarith
    complete := h2
    distinct := h3 }⟩

variable {sym : List (Op ℝ)} {G : Op ℝ → Species → Nat → Nat}

theorem Fam.dev_lt (hf : Fam c rots κ sym G) (h : Sharp c rots κ) (hg : PointGroup rots) {op : Op ℝ} (ho : op ∈ sym)
    (hsp : sp ∈ c.species) {a : Nat} (ha : a < sp.n) (k : Fin 3) : |dev G op sp a k| < c.thr / 11 := by
  have hthr := h.thr_pos
  have hh := h.thr_half hg
  norm_num at hh
  exact wrapHalf_near (by linarith) (hf.takes op ho sp hsp a ha) k

/-- Images of different atoms are different. -/
theorem Fam.inj (hf : Fam c rots κ sym G) (h : Sharp c rots κ) (hg : PointGroup rots) {op : Op ℝ} (ho : op ∈ sym)
    (hsp : sp ∈ c.species) {a b : Nat} (ha : a < sp.n) (hb : b < sp.n) (e : G op sp a = G op sp b) : a = b := by
  have hthr := h.thr_pos
  have hκ := h.kappa hg
  obtain ⟨N, hN, hNM⟩ := hg.inv op.rot (hf.rot_mem op ho)
  have h1 := hf.takes op ho sp hsp a ha
  have h2 := hf.takes op ho sp hsp b hb
  rw [← e] at h2
  have h3 : NearLattice (c.thr / 11 + c.thr / 11) (mulMV (castMat op.rot) fun k => sp.pos a k - sp.pos b k) :=
    (h1.add h2.neg).eq fun k => by simp only [Op.applyReal, mulMV_sub]; ring
  have h4 := h3.rot (by linarith) (h.rowSum N hN) (ε := (κ + 1) * c.thr) (by nlinarith)
  refine h.separated sp hsp a ha b hb (h4.eq fun k => ?_)
  rw [← mulMV_castMM, hNM, mulMV_one]

/-- Composition of the images. -/
theorem Fam.compose (hf : Fam c rots κ sym G) (h : Sharp c rots κ) (hg : PointGroup rots) {p q : Op ℝ} (hp : p ∈ sym) (hq : q ∈ sym) :
    ∃ r ∈ sym, r.rot = mulMM p.rot q.rot ∧ (NearLattice ((κ + 3) * c.thr / 11) fun k => r.a k - (p.mul q).a k) ∧
      ∀ sp ∈ c.species, ∀ a < sp.n, G r sp a = G p sp (G q sp a) := by
  have hthr := h.thr_pos
  have hκ := h.kappa hg
  have tk : ∀ sp ∈ c.species, ∀ a < sp.n, Takes ((κ + 2) * c.thr / 11) sp (p.mul q) a (G p sp (G q sp a)) := by
    intro sp hsp a ha
    have h1 := hf.takes q hq sp hsp a ha
    have h2 := hf.takes p hp sp hsp _ (hf.lt q hq sp hsp a ha)
    have h3 := NearLattice.rot (by linarith) (h.rowSum _ (hf.rot_mem p hp)) h1 (ε := (κ + 1) * c.thr / 11) (by nlinarith)
    refine ((h3.add h2).mono (by linarith)).eq fun k => ?_
    rw [C34_compose]
    rw [mulMV_sub]
    simp only [Op.applyReal]
    ring
  obtain ⟨r, hr, e, hn⟩ := hf.complete (p.mul q) (hg.mul _ (hf.rot_mem p hp) _ (hf.rot_mem q hq)) ((κ + 2) * c.thr / 11) (by nlinarith)
    (fun sp hsp a ha => ⟨_, hf.lt p hp sp hsp _ (hf.lt q hq sp hsp a ha),
      h.kind_mul sp hsp _ (hf.rot_mem p hp) _ (hf.rot_mem q hq) a ha _ (hf.lt q hq sp hsp a ha) _
        (hf.lt p hp sp hsp _ (hf.lt q hq sp hsp a ha)) (hf.adm q hq sp hsp a ha) (hf.adm p hp sp hsp _ (hf.lt q hq sp hsp a ha)),
      tk sp hsp a ha⟩)
  refine ⟨r, hr, e, hn.mono (by linarith), fun sp hsp a ha => ?_⟩
  have t1 := hf.takes r hr sp hsp a ha
  have t2 := (tk sp hsp a ha).add hn
  refine image_unique h hsp (hf.lt r hr sp hsp a ha) (hf.lt p hp sp hsp _ (hf.lt q hq sp hsp a ha))
    (v := r.applyReal (sp.pos a)) t1 (t2.eq fun k => ?_) (by nlinarith)
  simp only [Op.applyReal, e]
  have : (p.mul q).rot = mulMM p.rot q.rot := rfl
  rw [this]
  ring

theorem int_eq_of_lt {x y : Int} (h : |(x : ℝ) - y| < 1) : x = y := by
  have : |x - y| < 1 := by exact_mod_cast h
  have := abs_lt.1 this
  omega

/-- The composition is exact, and the deviations form a cocycle. -/
theorem Fam.exact (hf : Fam c rots κ sym G) (h : Sharp c rots κ) (hg : PointGroup rots) (hn : 0 < nAtoms c.species)
    {p q r : Op ℝ} (hp : p ∈ sym) (hq : q ∈ sym) (hr : r ∈ sym)
    (hrot : r.rot = mulMM p.rot q.rot) (hG : ∀ sp ∈ c.species, ∀ a < sp.n, G r sp a = G p sp (G q sp a)) (k : Fin 3) :
    (∃ n : Int, r.a k = (p.mul q).a k + n) ∧
    ∀ sp ∈ c.species, ∀ a < sp.n, dev G r sp a k = dev G p sp (G q sp a) k + mulMV (castMat p.rot) (dev G q sp a) k := by
  have hthr := h.thr_pos
  have hκ := h.kappa hg
  have hsm := h.thr_small
  -- the integers
  have hz : ∀ s : Species, ∀ a, ∃ z : Int, s ∈ c.species → a < s.n →
      dev G r s a k - dev G p s (G q s a) k - mulMV (castMat p.rot) (dev G q s a) k = (r.a k - (p.mul q).a k) - z := by
    intro s a
    by_cases hs : s ∈ c.species ∧ a < s.n
    · obtain ⟨n1, e1⟩ := wrapHalf_int fun k => r.applyReal (s.pos a) k - s.pos (G r s a) k
      obtain ⟨n2, e2⟩ := wrapHalf_int fun k => p.applyReal (s.pos (G q s a)) k - s.pos (G p s (G q s a)) k
      obtain ⟨n3, e3⟩ := wrapHalf_int fun k => q.applyReal (s.pos a) k - s.pos (G q s a) k
      have e1' : dev G r s a k = r.applyReal (s.pos a) k - s.pos (G r s a) k - n1 k := e1 k
      have e2' : dev G p s (G q s a) k = p.applyReal (s.pos (G q s a)) k - s.pos (G p s (G q s a)) k - n2 k := e2 k
      have e3' : dev G q s a = fun k => (q.applyReal (s.pos a) k - s.pos (G q s a) k) - (n3 k : ℝ) := funext e3
      refine ⟨n1 k - n2 k - (p.rot k 0 * n3 0 + p.rot k 1 * n3 1 + p.rot k 2 * n3 2), fun _ _ => ?_⟩
      rw [e1', e2', e3', hG s hs.1 a hs.2, mulMV_sub (castMat p.rot) (fun k => q.applyReal (s.pos a) k - s.pos (G q s a) k),
        mulMV_sub (castMat p.rot) (q.applyReal (s.pos a)), mulMV_cast_int]
      have e4 : mulMV (castMat p.rot) (q.applyReal (s.pos a)) k = (p.mul q).applyReal (s.pos a) k - p.a k := by
        rw [C34_compose]; simp only [Op.applyReal]; ring
      rw [e4]
      simp only [Op.applyReal, hrot]
      have : (p.mul q).rot = mulMM p.rot q.rot := rfl
      rw [this]
      push_cast
      ring
    · exact ⟨0, fun h1 h2 => absurd ⟨h1, h2⟩ hs⟩
  choose z hz using hz
  have hb : ∀ s ∈ c.species, ∀ a < s.n, |dev G r s a k - dev G p s (G q s a) k - mulMV (castMat p.rot) (dev G q s a) k| < 1 / 4 := by
    intro s hs a ha
    have b1 := abs_lt.1 (hf.dev_lt h hg hr hs ha k)
    have b2 := abs_lt.1 (hf.dev_lt h hg hp hs (hf.lt q hq s hs a ha) k)
    have b3 := abs_le.1 (mulMV_bound (h.rowSum _ (hf.rot_mem p hp)) (v := dev G q s a) (δ := c.thr / 11) (by linarith)
      (fun k => (hf.dev_lt h hg hq hs ha k).le) k)
    rw [abs_lt]
    constructor <;> nlinarith
  -- sums of the deviations
  have s1 : atomSum c.species (fun s a => dev G r s a k - dev G p s (G q s a) k - mulMV (castMat p.rot) (dev G q s a) k) = 0 := by
    simp only [sub_eq_add_neg]
    rw [atomSum_add, atomSum_add, atomSum_neg, atomSum_neg, hf.balanced r hr k, atomSum_mulMV]
    have e1 : atomSum c.species (fun s a => dev G p s (G q s a) k) = atomSum c.species fun s a => dev G p s a k := by
      unfold atomSum
      congr 1
      refine List.map_congr_left fun s hs => ?_
      exact sum_range_inj (G q s) (hf.lt q hq s hs) (fun a ha b hb e => hf.inj h hg hq hs ha hb e) fun a => dev G p s a k
    rw [e1, hf.balanced p hp k]
    have e2 : (fun k => atomSum c.species fun s a => dev G q s a k) = fun _ => 0 := funext fun k => hf.balanced q hq k
    rw [e2]
    simp [mulMV_apply]
  -- all integers are equal
  obtain ⟨s0, hs0, h0⟩ : ∃ s ∈ c.species, 0 < s.n := by
    by_contra hcon
    push Not at hcon
    have : nAtoms c.species = 0 := by
      unfold nAtoms
      apply List.sum_eq_zero
      intro x hx
      obtain ⟨s, hs, rfl⟩ := List.mem_map.1 hx
      have := hcon s hs
      omega
    omega
  have hzz : ∀ s ∈ c.species, ∀ a < s.n, z s a = z s0 0 := by
    intro s hs a ha
    apply int_eq_of_lt
    have b1 := hb s hs a ha
    have b2 := hb s0 hs0 0 h0
    rw [hz s a hs ha] at b1
    rw [hz s0 0 hs0 h0] at b2
    have b1 := abs_lt.1 b1
    have b2 := abs_lt.1 b2
    rw [abs_lt]
    constructor <;> linarith
  have s2 : atomSum c.species (fun s a => dev G r s a k - dev G p s (G q s a) k - mulMV (castMat p.rot) (dev G q s a) k)
      = nAtoms c.species * ((r.a k - (p.mul q).a k) - z s0 0) := by
    rw [← atomSum_const]
    exact atomSum_congr fun s hs a ha => by rw [hz s a hs ha, hzz s hs a ha]
  have hN : (nAtoms c.species : ℝ) ≠ 0 := by exact_mod_cast hn.ne'
  have key : (r.a k - (p.mul q).a k) - z s0 0 = 0 := by
    rw [s1] at s2
    rcases mul_eq_zero.1 s2.symm with h | h
    · exact absurd h hN
    · exact h
  refine ⟨⟨z s0 0, by linarith⟩, fun s hs a ha => ?_⟩
  have := hz s a hs ha
  rw [hzz s hs a ha, key] at this
  linarith

/-- The identity is found exactly. -/
theorem Fam.identity (hf : Fam c rots κ sym G) (h : Sharp c rots κ) (hg : PointGroup rots) (hn : 0 < nAtoms c.species) :
    Op.one ∈ sym := by
  have hthr := h.thr_pos
  have hκ := h.kappa hg
  have hh := h.thr_half hg
  norm_num at hh
  obtain ⟨e, he, hrot, hnear⟩ := hf.complete Op.one hg.one (c.thr / 11) (by nlinarith) (fun sp hsp a ha => ⟨a, ha, h.kind_one sp hsp a ha,
    (near_zero (by linarith)).eq fun k => by
      rw [show (Op.one : Op ℝ).applyReal (sp.pos a) = sp.pos a from by
        funext k; simp only [Op.applyReal, Op.one, mulMV_one]
        match k with | 0 | 1 | 2 => simp [vec]]
      ring⟩)
  have hone : ∀ k, (Op.one : Op ℝ).a k = 0 := by intro k; match k with | 0 | 1 | 2 => rfl
  have hrot' : e.rot = diag 1 1 1 := hrot
  have app : ∀ (s : Species) a k, e.applyReal (s.pos a) k = s.pos a k + e.a k := by
    intro s a k
    simp only [Op.applyReal, hrot', mulMV_one]
  have hG : ∀ sp ∈ c.species, ∀ a < sp.n, G e sp a = a := by
    intro sp hsp a ha
    refine image_unique h hsp (hf.lt e he sp hsp a ha) ha (v := e.applyReal (sp.pos a)) (hf.takes e he sp hsp a ha)
      (hnear.eq fun k => by rw [app, hone]; ring) (by nlinarith)
  have hid : mulMM e.rot e.rot = e.rot := by
    rw [hrot']; decide
  have hex := hf.exact h hg hn he he he hid.symm (fun sp hsp a ha => by rw [hG sp hsp a ha, hG sp hsp a ha])
  have ha0 : ∀ k, e.a k = 0 := by
    intro k
    obtain ⟨⟨n, hn'⟩, _⟩ := hex k
    have e1 : (e.mul e).a k = e.a k + e.a k := by
      simp only [Op.mul, hrot', mulMV_one]
    have e2 : e.a k = ((-n : Int) : ℝ) := by rw [e1] at hn'; push_cast; linarith
    have e3 : -n = 0 := by
      apply int_eq_of_lt
      rw [← e2]
      simpa using hf.small e he k
    rw [e2, e3]; simp
  have : e = Op.one := Op.ext' hrot (funext fun k => by rw [ha0 k, hone k])
  rw [← this]; exact he

theorem Fam.spaceGroup (hf : Fam c rots κ sym G) (h : Sharp c rots κ) (hg : PointGroup rots) (hn : 0 < nAtoms c.species) :
    IsSpaceGroup sym where
  one := ⟨Op.one, hf.identity h hg hn, rfl, fun k => ⟨0, by simp⟩⟩
  mul := by
    intro p hp q hq
    obtain ⟨r, hr, e, _, hG⟩ := hf.compose h hg hp hq
    exact ⟨r, hr, e, fun k => (hf.exact h hg hn hp hq hr e hG k).1⟩
  unimodular := fun p hp => hg.unimodular _ (hf.rot_mem p hp)
  distinct := by
    refine hf.distinct.imp fun {p q} hpq hsame => ?_
    have hthr := h.thr_pos
    have hκ := h.kappa hg
    obtain ⟨e, hn⟩ := hsame
    choose n hn using hn
    exact hpq e ⟨n, fun k => by show |p.a k - q.a k - n k| < _; rw [hn k, show q.a k + (n k : ℝ) - q.a k - n k = 0 by ring, abs_zero]; positivity⟩

end
end Jdftx.FindGroup
