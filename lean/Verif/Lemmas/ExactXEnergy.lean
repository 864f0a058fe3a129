import Verif.Lemmas.ExactX

/-!
# Lemmas for C97: energy and gradient
-/
namespace Jdftx.EXX
open M3
noncomputable section

/-! ### Finite sums -/

/-- Finitely many plane waves. -/
abbrev Orb.Fin (p : Orb) : Prop := (Function.support p.c).Finite

theorem act_fin {K : V3 ℝ → ℝ} {t : KT} (h : Symmetry K t) {p : Orb} (hp : p.Fin) : (p.act t).Fin := by
  refine Set.Finite.subset (hp.image (fwd t)) fun x hx => ?_
  refine ⟨bwd t x, ?_, fwd_bwd h x⟩
  intro h0
  apply hx
  show conjIf t.invert (p.c (bwd t x) * _) = 0
  rw [h0, zero_mul, conjIf_zero]

theorem pairDensity_supp {p q : Orb} (hp : p.Fin) (hq : q.Fin) : (Function.support (pairDensity p q)).Finite := by
  refine Set.Finite.subset (Set.Finite.image2 (fun g h : V3 Int => fun i => h i - g i) hp hq) fun G hG => ?_
  by_contra hn
  apply hG
  show ∑ᶠ g : V3 Int, star (p.c g) * q.c (fun i => g i + G i) = 0
  rw [finsum_eq_zero_of_forall_eq_zero]
  intro g
  by_cases h1 : p.c g = 0
  · rw [h1]; simp
  by_cases h2 : q.c (fun i => g i + G i) = 0
  · rw [h2, mul_zero]
  exact absurd ⟨g, h1, _, h2, by funext i; show g i + G i - g i = G i; ring⟩ hn

theorem pairDensity_sum {p : Orb} (hp : p.Fin) (q : Orb) (G : V3 Int) : pairDensity p q G = ∑ g ∈ hp.toFinset, star (p.c g) * q.c (fun i => g i + G i) := by
  refine finsum_eq_sum_of_support_subset _ fun g hg => ?_
  rw [Set.Finite.coe_toFinset]
  intro h0
  apply hg
  show star (p.c g) * _ = 0
  rw [h0]; simp

theorem pairDensity_swap (p q : Orb) (G : V3 Int) : pairDensity q p (fun i => -G i) = star (pairDensity p q G) := by
  unfold pairDensity
  rw [star_finsum, ← finsum_comp_equiv (Equiv.addRight G)]
  refine finsum_congr fun g => ?_
  show star (q.c (fun i => g i + G i)) * p.c (fun i => g i + G i + -G i) = _
  rw [StarMul.star_mul, star_star]
  have : (fun i => g i + G i + -G i) = g := by funext i; ring
  rw [this]

theorem form_swap {K : V3 ℝ → ℝ} (hK : EvenKernel K) (p p' q : Orb) : form K q p' p = ∑ᶠ G : V3 Int, (K (fun i => q.k i - p.k i + G i) : ℂ) * (star (pairDensity p q G) * pairDensity p' q G) := by
  unfold form
  rw [← finsum_comp_equiv (Equiv.neg (V3 Int))]
  refine finsum_congr fun G => ?_
  show (K (fun i => p.k i - q.k i + ((-G i : Int) : ℝ)) : ℂ) * (star (pairDensity q p' (fun i => -G i)) * pairDensity q p (fun i => -G i)) = _
  rw [pairDensity_swap, pairDensity_swap, star_star]
  have : K (fun i => p.k i - q.k i + ((-G i : Int) : ℝ)) = K (fun i => q.k i - p.k i + G i) := by
    rw [← hK]; congr 1; funext i; push_cast; ring
  rw [this]; ring

theorem finsum_on {A : Finset (V3 Int)} (κ : V3 Int → ℂ) (x : V3 Int → ℂ) (n : V3 Int → ℂ) (hn : Function.support n ⊆ A) : ∑ᶠ G : V3 Int, κ G * (star (n G) * x G) = ∑ G ∈ A, κ G * (star (n G) * x G) := by
  refine finsum_eq_sum_of_support_subset _ fun G hG => hn fun h0 => hG ?_
  show κ G * (star (n G) * x G) = 0
  rw [h0]; simp

/-- An orbital on a line. -/
def Orb.line (p p' : Orb) (t : ℝ) : Orb := ⟨p.k, fun g => p.c g + (t : ℂ) * p'.c g⟩

theorem line_fin {p p' : Orb} (hp : p.Fin) (hp' : p'.Fin) (t : ℝ) : (p.line p' t).Fin := by
  refine Set.Finite.subset (hp.union hp') fun g hg => ?_
  by_contra hn
  rw [Set.mem_union, not_or, Function.notMem_support, Function.notMem_support] at hn
  apply hg
  show p.c g + _ * p'.c g = 0
  rw [hn.1, hn.2]; simp

theorem line_density {p p' q q' : Orb} (hp : p.Fin) (hp' : p'.Fin) (t : ℝ) (G : V3 Int) :
    pairDensity (p.line p' t) (q.line q' t) G = pairDensity p q G + t * (pairDensity p' q G + pairDensity p q' G) + t ^ 2 * pairDensity p' q' G := by
  have hA : ∀ (x y : Orb) (hx : Function.support x.c ⊆ (hp.union hp').toFinset), pairDensity x y G = ∑ g ∈ (hp.union hp').toFinset, star (x.c g) * y.c (fun i => g i + G i) := by
    intro x y hx
    refine finsum_eq_sum_of_support_subset _ fun g hg => hx fun h0 => hg ?_
    show star (x.c g) * _ = 0
    rw [h0]; simp
  have s1 : Function.support p.c ⊆ (hp.union hp').toFinset := by rw [Set.Finite.coe_toFinset]; exact Set.subset_union_left
  have s2 : Function.support p'.c ⊆ (hp.union hp').toFinset := by rw [Set.Finite.coe_toFinset]; exact Set.subset_union_right
  have s3 : Function.support (p.line p' t).c ⊆ (hp.union hp').toFinset := by
    rw [Set.Finite.coe_toFinset]
    intro g hg
    by_contra hn
    rw [Set.mem_union, not_or, Function.notMem_support, Function.notMem_support] at hn
    apply hg
    show p.c g + _ * p'.c g = 0
    rw [hn.1, hn.2]; simp
  rw [hA _ _ s1, hA _ _ s1, hA _ _ s2, hA _ _ s2, hA _ _ s3, ← Finset.sum_add_distrib, Finset.mul_sum, Finset.mul_sum, ← Finset.sum_add_distrib, ← Finset.sum_add_distrib]
  refine Finset.sum_congr rfl fun g _ => ?_
  show star (p.c g + t * p'.c g) * (q.c _ + t * q'.c _) = _
  rw [star_add, StarMul.star_mul, show star (t : ℂ) = t from Complex.conj_ofReal t]
  ring

theorem form_re (K : V3 ℝ → ℝ) (p q : Orb) : (form K p q q).re = ∑ᶠ G : V3 Int, K (fun i => q.k i - p.k i + G i) * ‖pairDensity p q G‖ ^ 2 := by
  have : form K p q q = ((∑ᶠ G : V3 Int, K (fun i => q.k i - p.k i + G i) * ‖pairDensity p q G‖ ^ 2 : ℝ) : ℂ) := by
    rw [show ((∑ᶠ G : V3 Int, K (fun i => q.k i - p.k i + G i) * ‖pairDensity p q G‖ ^ 2 : ℝ) : ℂ) = Complex.ofRealHom.toAddMonoidHom (∑ᶠ G : V3 Int, K (fun i => q.k i - p.k i + G i) * ‖pairDensity p q G‖ ^ 2) from rfl,
      AddMonoidHom.map_finsum_of_injective _ Complex.ofReal_injective]
    refine finsum_congr fun G => ?_
    show _ = ((K (fun i => q.k i - p.k i + G i) * ‖pairDensity p q G‖ ^ 2 : ℝ) : ℂ)
    have := Complex.conj_mul' (pairDensity p q G)
    rw [show star (pairDensity p q G) = (starRingEnd ℂ) (pairDensity p q G) from rfl, this]
    push_cast; rfl
  rw [this, Complex.ofReal_re]

theorem normSq_line (a b c : ℂ) (t : ℝ) : ‖a + t * b + t ^ 2 * c‖ ^ 2 =
    ‖a‖ ^ 2 + t * (2 * (star a * b).re) + t ^ 2 * (‖b‖ ^ 2 + 2 * (star a * c).re + t * (2 * (star b * c).re) + t ^ 2 * ‖c‖ ^ 2) := by
  rw [← Complex.normSq_eq_norm_sq, ← Complex.normSq_eq_norm_sq, ← Complex.normSq_eq_norm_sq, ← Complex.normSq_eq_norm_sq]
  have e : a + t * b + t ^ 2 * c = ⟨a.re + t * b.re + t ^ 2 * c.re, a.im + t * b.im + t ^ 2 * c.im⟩ := by
    apply Complex.ext <;> simp [← Complex.ofReal_pow]
  rw [e]
  simp only [Complex.normSq_apply, Complex.mul_re, Complex.star_def, Complex.conj_re, Complex.conj_im]
  ring

theorem normSq_deriv (a b c : ℂ) : HasDerivAt (fun t : ℝ => ‖a + t * b + t ^ 2 * c‖ ^ 2) (2 * (star a * b).re) 0 := by
  have e : (fun t : ℝ => ‖a + t * b + t ^ 2 * c‖ ^ 2) = fun t : ℝ => ‖a‖ ^ 2 + t * (2 * (star a * b).re) + t ^ 2 * (‖b‖ ^ 2 + 2 * (star a * c).re + t * (2 * (star b * c).re) + t ^ 2 * ‖c‖ ^ 2) := funext fun t => normSq_line a b c t
  rw [e]
  generalize 2 * (star a * b).re = B
  generalize ‖b‖ ^ 2 + 2 * (star a * c).re = D
  generalize 2 * (star b * c).re = E
  generalize ‖c‖ ^ 2 = H
  have hid := hasDerivAt_id (0 : ℝ)
  have h2 := hasDerivAt_pow 2 (0 : ℝ)
  have h := ((hid.mul_const B).const_add (‖a‖ ^ 2)).add (h2.mul (((hid.mul_const E).const_add D).add (h2.mul_const H)))
  refine h.congr_deriv ?_
  simp

theorem form_line {K : V3 ℝ → ℝ} (hK : EvenKernel K) {p p' q q' : Orb} (hp : p.Fin) (hp' : p'.Fin) (hq : q.Fin) (hq' : q'.Fin) :
    HasDerivAt (fun t : ℝ => (form K (p.line p' t) (q.line q' t) (q.line q' t)).re) (2 * (form K p q' q).re + 2 * (form K q p' p).re) 0 := by
  have fin := ((pairDensity_supp hp hq).union (pairDensity_supp hp' hq)).union ((pairDensity_supp hp hq').union (pairDensity_supp hp' hq'))
  set A := fin.toFinset with hA
  have sA : ∀ G ∉ A, pairDensity p q G = 0 ∧ pairDensity p' q G = 0 ∧ pairDensity p q' G = 0 ∧ pairDensity p' q' G = 0 := by
    intro G hG
    rw [hA, Set.Finite.mem_toFinset] at hG
    simp only [Set.mem_union, not_or, Function.notMem_support] at hG
    exact ⟨hG.1.1, hG.1.2, hG.2.1, hG.2.2⟩
  have e : (fun t : ℝ => (form K (p.line p' t) (q.line q' t) (q.line q' t)).re) = fun t : ℝ => ∑ G ∈ A, K (fun i => q.k i - p.k i + G i) *
      ‖pairDensity p q G + t * (pairDensity p' q G + pairDensity p q' G) + t ^ 2 * pairDensity p' q' G‖ ^ 2 := by
    funext t
    rw [form_re]
    rw [finsum_eq_sum_of_support_subset (s := A)]
    · refine Finset.sum_congr rfl fun G _ => ?_
      rw [line_density hp hp']
      rfl
    · intro G hG
      by_contra hn
      obtain ⟨h1, h2, h3, h4⟩ := sA G hn
      apply hG
      show _ * ‖pairDensity (p.line p' t) (q.line q' t) G‖ ^ 2 = 0
      rw [line_density hp hp', h1, h2, h3, h4]; simp
  rw [e]
  have hd := HasDerivAt.fun_sum (u := A) fun G _ => (normSq_deriv (pairDensity p q G) (pairDensity p' q G + pairDensity p q' G) (pairDensity p' q' G)).const_mul (K (fun i => q.k i - p.k i + G i))
  refine hd.congr_deriv ?_
  have s1 : Function.support (pairDensity p q) ⊆ A := fun G hG => by
    by_contra hn
    exact hG (sA G hn).1
  have s3 : Function.support (pairDensity p q') ⊆ A := fun G hG => by
    by_contra hn
    exact hG (sA G hn).2.2.1
  have f1 : form K p q' q = ∑ G ∈ A, (K (fun i => q.k i - p.k i + G i) : ℂ) * (star (pairDensity p q' G) * pairDensity p q G) := finsum_on _ _ _ s3
  have f2 : form K q p' p = ∑ G ∈ A, (K (fun i => q.k i - p.k i + G i) : ℂ) * (star (pairDensity p q G) * pairDensity p' q G) := by
    rw [form_swap hK]
    exact finsum_on _ _ _ s1
  rw [f1, f2, Complex.re_sum, Complex.re_sum, Finset.mul_sum, Finset.mul_sum, ← Finset.sum_add_distrib]
  refine Finset.sum_congr rfl fun G _ => ?_
  rw [Complex.re_ofReal_mul, Complex.re_ofReal_mul]
  simp only [Complex.mul_re, Complex.star_def, Complex.conj_re, Complex.conj_im, Complex.add_re, Complex.add_im]
  ring

theorem act_line (t : KT) (p p' : Orb) (hk : p'.k = p.k) (s : ℝ) : (p.line p' s).act t = (p.act t).line (p'.act t) s := by
  apply orb_ext
  · rfl
  · funext h
    show conjIf t.invert ((p.c (bwd t h) + s * p'.c (bwd t h)) * Euler.cis (2 * Real.pi * dot (fun i => (bwd t h i : ℝ) + p.k i) t.op.a)) =
      conjIf t.invert (p.c (bwd t h) * Euler.cis (2 * Real.pi * dot (fun i => (bwd t h i : ℝ) + p.k i) t.op.a)) +
        s * conjIf t.invert (p'.c (bwd t h) * Euler.cis (2 * Real.pi * dot (fun i => (bwd t h i : ℝ) + p'.k i) t.op.a))
    rw [hk]
    generalize Euler.cis (2 * Real.pi * dot (fun i => (bwd t h i : ℝ) + p.k i) t.op.a) = e
    rw [add_mul, conjIf_add, mul_assoc (s : ℂ), conjIf_mul _ (s : ℂ), conjIf_real]

/-- The gradient contracted with a direction. -/
theorem hc_inner {K : V3 ℝ → ℝ} {p : Orb} (hp : p.Fin) (d : V3 Int →₀ ℂ) (k : V3 ℝ) (q : Orb) :
    ∑ G ∈ d.support, star (d G) * ∑ᶠ g : V3 Int, (K (fun i => q.k i - p.k i + ((G i - g i : Int) : ℝ)) : ℂ) * pairDensity p q (fun i => G i - g i) * p.c g = form K p ⟨k, d⟩ q := by
  set A := hp.toFinset with hA
  have sA : ∀ g ∉ A, p.c g = 0 := by
    intro g hg
    rw [hA, Set.Finite.mem_toFinset, Function.notMem_support] at hg
    exact hg
  have h1 : ∀ G : V3 Int, ∑ᶠ g : V3 Int, (K (fun i => q.k i - p.k i + ((G i - g i : Int) : ℝ)) : ℂ) * pairDensity p q (fun i => G i - g i) * p.c g =
      ∑ g ∈ A, (K (fun i => q.k i - p.k i + ((G i - g i : Int) : ℝ)) : ℂ) * pairDensity p q (fun i => G i - g i) * p.c g := by
    intro G
    refine finsum_eq_sum_of_support_subset _ fun g hg => ?_
    by_contra hn
    apply hg
    show _ * p.c g = 0
    rw [sA g hn, mul_zero]
  simp only [h1, Finset.mul_sum]
  rw [Finset.sum_comm]
  have h2 : form K p ⟨k, d⟩ q = ∑ᶠ G : V3 Int, ∑ g ∈ A, (K (fun i => q.k i - p.k i + G i) : ℂ) * (p.c g * star (d (fun i => g i + G i))) * pairDensity p q G := by
    unfold form
    refine finsum_congr fun G => ?_
    rw [pairDensity_sum hp, star_sum, ← Finset.sum_mul, ← Finset.mul_sum]
    have : ∀ g, star (star (p.c g) * d (fun i => g i + G i)) = p.c g * star (d (fun i => g i + G i)) := fun g => by
      rw [StarMul.star_mul, star_star, mul_comm]
    simp only [this]
    ring
  rw [h2]
  have hfin : ∀ g : V3 Int, (Function.support fun H : V3 Int => (K (fun i => q.k i - p.k i + H i) : ℂ) * (p.c g * star (d (fun i => g i + H i))) * pairDensity p q H).Finite := by
    intro g
    refine Set.Finite.subset ((d.support.finite_toSet).image fun H : V3 Int => fun i => H i - g i) fun H hH => ⟨fun i => g i + H i, ?_, by funext i; show g i + H i - g i = H i; ring⟩
    by_contra hn
    apply hH
    rw [Finset.mem_coe, Finsupp.notMem_support_iff] at hn
    show _ * (p.c g * star (d (fun i => g i + H i))) * _ = 0
    rw [hn]; simp
  rw [finsum_sum_comm _ _ fun g _ => hfin g]
  refine Finset.sum_congr rfl fun g _ => ?_
  rw [← finsum_comp_equiv (Equiv.subRight g)]
  symm
  rw [finsum_eq_sum_of_support_subset (s := d.support)]
  · refine Finset.sum_congr rfl fun H _ => ?_
    show (K (fun i => q.k i - p.k i + ((H i - g i : Int) : ℝ)) : ℂ) * (p.c g * star (d (fun i => g i + (H i - g i)))) * pairDensity p q (fun i => H i - g i) = _
    have : (fun i => g i + (H i - g i)) = H := by funext i; ring
    rw [this]; ring
  · intro H hH
    by_contra hn
    rw [Finset.mem_coe, Finsupp.notMem_support_iff] at hn
    apply hH
    show (K (fun i => q.k i - p.k i + ((H i - g i : Int) : ℝ)) : ℂ) * (p.c g * star (d (fun i => g i + (H i - g i)))) * pairDensity p q (fun i => H i - g i) = 0
    have : (fun i => g i + (H i - g i)) = H := by funext i; ring
    rw [this, hn]; simp

/-! ### Sums over chunks -/

theorem list_indicator_sum (l : List Chunk) (q b : Nat) (x : ℂ) : (l.map fun c => if c.has q b then x else 0).sum = (l.countP (fun c => decide (c.has q b)) : ℂ) * x := by
  induction l with
  | nil => simp
  | cons c l ih =>
    rw [List.map_cons, List.sum_cons, ih, List.countP_cons]
    by_cases h : c.has q b
    · simp only [h, decide_true, if_true]; push_cast; ring
    · simp only [h, decide_false]; simp

theorem jCost_length (S : Sys) : S.jCost.length = S.Q := by simp [Sys.jCost]

variable (S : Sys) (hB : 0 < S.nB) (hn : 0 < S.nProc) (hp : ∀ c ∈ S.jCost, 0 < c)
include hB hn hp

theorem chunks_count (q b : Nat) (hq : q < S.Q) (hb : b < S.nB) : S.allChunks.countP (fun c => decide (c.has q b)) = 1 := by
  unfold Sys.allChunks
  rw [all_count S.jCost S.nB S.nProc hB hn S.nProc q b hb le_rfl, start_last S.jCost S.nB S.nProc hn hp, jCost_length, if_pos]
  have := mul_cases S.nB q S.Q hq
  omega

omit hp in
theorem chunks_range (c : Chunk) (hc : c ∈ S.allChunks) : c.iq < S.Q ∧ c.bStop ≤ S.nB := by
  obtain ⟨j, hj, h⟩ := List.mem_flatMap.1 hc
  have := chunk_range S.jCost S.nB S.nProc hB hn j (List.mem_range.1 hj) c h
  rw [jCost_length] at this
  exact ⟨this.1, this.2.2.2.1⟩

theorem chunk_sum (g : Nat → Nat → ℝ) : (S.allChunks.map fun c => ∑ b ∈ Finset.Ico c.bStart c.bStop, g c.iq b).sum = ∑ q ∈ Finset.range S.Q, ∑ b ∈ Finset.range S.nB, g q b := by
  have h1 : ∀ c ∈ S.allChunks, ∑ b ∈ Finset.Ico c.bStart c.bStop, g c.iq b = ∑ q ∈ Finset.range S.Q, ∑ b ∈ Finset.range S.nB, if c.has q b then g q b else 0 := by
    intro c hc
    obtain ⟨r1, r2⟩ := chunks_range S hB hn c hc
    symm
    rw [Finset.sum_eq_single c.iq]
    · rw [← Finset.sum_filter]
      refine Finset.sum_congr ?_ fun _ _ => rfl
      ext b
      simp only [Finset.mem_Ico, Finset.mem_filter, Finset.mem_range, Chunk.has]
      constructor
      · intro h; exact ⟨h.2.2.1, h.2.2.2⟩
      · intro h; exact ⟨by omega, trivial, h.1, h.2⟩
    · intro q _ hq
      refine Finset.sum_eq_zero fun b _ => if_neg fun h => hq h.1.symm
    · intro h; exact absurd (Finset.mem_range.2 r1) h
  rw [List.map_congr_left h1]
  have h2 : ∀ l : List Chunk, (l.map fun c => ∑ q ∈ Finset.range S.Q, ∑ b ∈ Finset.range S.nB, if c.has q b then g q b else 0).sum =
      ∑ q ∈ Finset.range S.Q, ∑ b ∈ Finset.range S.nB, (l.countP (fun c => decide (c.has q b)) : ℝ) * g q b := by
    intro l
    induction l with
    | nil => simp
    | cons c l ih =>
      rw [List.map_cons, List.sum_cons, ih, ← Finset.sum_add_distrib]
      refine Finset.sum_congr rfl fun q _ => ?_
      rw [← Finset.sum_add_distrib]
      refine Finset.sum_congr rfl fun b _ => ?_
      rw [List.countP_cons]
      by_cases h : c.has q b
      · simp only [h, decide_true, if_true]; push_cast; ring
      · simp only [h, decide_false]; simp
  rw [h2]
  refine Finset.sum_congr rfl fun q hq => Finset.sum_congr rfl fun b hb => ?_
  rw [chunks_count S hB hn hp q b (Finset.mem_range.1 hq) (Finset.mem_range.1 hb)]
  simp

theorem grad_eq (C : Wfns) (F : Fill) (s q b : Nat) (hq : q < S.Q) (hb : b < S.nB) (G : V3 Int) : S.grad C F s q b G = ∑ ik ∈ Finset.range S.Q, S.pairGrad C F s ik q b G := by
  have := list_indicator_sum S.allChunks q b (∑ ik ∈ Finset.range S.Q, S.pairGrad C F s ik q b G)
  rw [chunks_count S hB hn hp q b hq hb] at this
  rw [Nat.cast_one, one_mul] at this
  rw [← this]
  unfold Sys.grad
  refine congrArg List.sum (List.map_congr_left fun c _ => ?_)
  by_cases h : c.has q b
  · rw [if_pos h]; exact if_pos h
  · rw [if_neg h]; exact if_neg h

end
end Jdftx.EXX
