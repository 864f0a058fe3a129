import Verif.Lemmas.WignerSeitz

/-!
# C28, C29, C62: Wigner-Seitz cells
-/
namespace Jdftx.WS
open Jdftx.M3

/-! ## C28 -/

theorem inside_iff {R : Mat ℝ} {f : Face} (h : Good R f) (tol : ℝ) (y : V3 ℝ) :
    Inside R tol y f.img ↔ -tol ≤ dPos f y ∧ dPos f y ≤ 1 + tol := by
  have hi := dPos_ip h y
  have hp := h.pos
  have e1 : lenSq R (fun i => y i - (f.img i : ℝ)) = lenSq R y - 2 * ip R (castV f.img) y + lenSq R (castV f.img) := by
    have := lenSq_sub R y (castV f.img) 1
    simp only [one_mul, castV, mul_one, one_pow] at this
    exact this
  have e2 : lenSq R (fun i => y i + (f.img i : ℝ)) = lenSq R y + 2 * ip R (castV f.img) y + lenSq R (castV f.img) := by
    have := lenSq_sub R y (castV f.img) (-1)
    simp only [neg_mul, one_mul, sub_neg_eq_add, castV, mul_neg, mul_one] at this
    rw [this]
    norm_num
  have e3 : lenSq R (fun i => (f.img i : ℝ)) = lenSq R (castV f.img) := rfl
  unfold Inside
  rw [e1, e2, e3]
  constructor
  · rintro ⟨a, b⟩
    constructor
    · by_contra hc
      push Not at hc
      nlinarith
    · by_contra hc
      push Not at hc
      nlinarith
  · rintro ⟨a, b⟩
    constructor <;> nlinarith

/-- Reduction to the Wigner-Seitz cell ends, for every list of faces the constructor can have made, and returns a point that
differs from the input by a lattice vector, is not farther from the origin, and is on the inner side of all faces to within
the tolerance. -/
theorem C28_reduce (R : Mat ℝ) (hR : det R ≠ 0) (tol : ℝ) (htol : 0 < tol) (faces : List Face)
    (hf : ∀ f ∈ faces, Made R f) (x : V3 ℝ) :
    ∃ N y, (∀ fuel, N ≤ fuel → reduce tol faces fuel x = .ok y) ∧ Equivalent x y ∧ lenSq R y ≤ lenSq R x ∧
      ∀ f ∈ faces, Inside R tol y f.img := by
  have hg : ∀ f ∈ faces, Good R f := fun f h => made_good R hR f (hf f h)
  obtain ⟨L, hL, hmin⟩ := exists_min_len R faces hg
  have htl : 0 < tol * L := mul_pos htol hL
  obtain ⟨N, hN⟩ := exists_nat_gt (lenSq R x / (tol * L))
  rw [div_lt_iff₀ htl] at hN
  obtain ⟨y, h1, h2, h3, h4⟩ := reduce_spec tol htol L hL faces (fun f h => ⟨hg f h, hmin f h⟩) N x hN
  have mono : ∀ n x y, reduce tol faces n x = .ok y → reduce tol faces (n + 1) x = .ok y := by
    intro n
    induction n with
    | zero => intro x y h; simp [reduce] at h
    | succ n ih =>
      intro x y h
      unfold reduce at h ⊢
      simp only at h ⊢
      split at h
      · next hc => rw [if_pos hc]; exact ih _ _ h
      · next hc => rw [if_neg hc]; exact h
  refine ⟨N, y, ?_, h2, h3, fun f h => (inside_iff (hg f h) tol y).2 (h4 f h)⟩
  intro fuel hfuel
  obtain ⟨k, rfl⟩ := Nat.exists_eq_add_of_le hfuel
  clear hfuel
  induction k with
  | zero => exact h1
  | succ k ih => exact mono _ _ _ ih

/-- The version for mesh points gives the mesh point which the real version gives, shifted by whole cells. -/
theorem C28_mesh (R : Mat ℝ) (hR : det R ≠ 0) (tol : ℝ) (htol : 0 < tol) (faces : List Face)
    (hf : ∀ f ∈ faces, Made R f) (S : V3 Int) (hS : ∀ k, 0 < S k) (iv : V3 Int) :
    ∃ N iv', (∀ fuel, N ≤ fuel → reduceMesh tol S (fun k => 1 / (S k : ℝ)) faces fuel iv = .ok iv' ∧
        reduce tol faces fuel (fun k => (iv k : ℝ) / (S k : ℝ)) = .ok (fun k => (iv' k : ℝ) / (S k : ℝ))) ∧
      (∃ n : V3 Int, ∀ k, iv' k = iv k + n k * S k) ∧
      ∀ f ∈ faces, Inside R tol (fun k => (iv' k : ℝ) / (S k : ℝ)) f.img := by
  have hS' : ∀ k, S k ≠ 0 := fun k => (hS k).ne'
  obtain ⟨N, y, h1, h2, h3, h4⟩ := C28_reduce R hR tol htol faces hf (meshPoint S iv)
  have key : ∀ fuel, N ≤ fuel → ∃ iv', reduceMesh tol S (fun k => 1 / (S k : ℝ)) faces fuel iv = .ok iv' ∧ meshPoint S iv' = y := by
    intro fuel hfuel
    have e := reduceMesh_eq tol S hS' faces fuel iv
    rw [h1 fuel hfuel] at e
    cases hr : reduceMesh tol S (fun k => 1 / (S k : ℝ)) faces fuel iv with
    | error _ => rw [hr] at e; simp [Except.map] at e
    | ok iv' =>
      rw [hr] at e
      simp only [Except.map, Except.ok.injEq] at e
      exact ⟨iv', rfl, e⟩
  obtain ⟨iv', g1, g2⟩ := key N (le_refl N)
  have inj : ∀ a b : V3 Int, meshPoint S a = meshPoint S b → a = b := by
    intro a b hab
    funext k
    have := congrFun hab k
    have hk : (S k : ℝ) ≠ 0 := by exact_mod_cast hS' k
    simp only [meshPoint] at this
    rw [div_left_inj' hk] at this
    exact_mod_cast this
  refine ⟨N, iv', fun fuel hfuel => ?_, reduceMesh_equiv _ _ _ _ _ _ _ g1, fun f h => ?_⟩
  · obtain ⟨iv'', k1, k2⟩ := key fuel hfuel
    have : iv'' = iv' := inj _ _ (k2.trans g2.symm)
    subst this
    exact ⟨k1, by rw [show (fun k => (iv'' k : ℝ) / (S k : ℝ)) = y from k2]; exact h1 fuel hfuel⟩
  · have := h4 f h
    rw [← g2] at this
    exact this

-- The faces of a cubic cell; the point (5/2, 0, 0) is outside and is moved.
example : (∀ f ∈ [initFace (diag 1 1 1) 0 true, initFace (diag 1 1 1) 1 true, initFace (diag 1 1 1) 2 true,
      planeFace (diag 1 1 1) (vec 1 1 0)], Made (diag 1 1 1) f) ∧ det (diag 1 1 1 : Mat ℝ) ≠ 0 ∧
    ¬Inside (diag 1 1 1) (1/100) (vec (5/2) 0 0) (initFace (diag 1 1 1) 0 true).img := by
  refine ⟨?_, by simp [det, box, dot, cross, row, vec, diag], ?_⟩
  · intro f hf
    simp only [List.mem_cons, List.not_mem_nil, or_false] at hf
    rcases hf with rfl | rfl | rfl | rfl
    · exact .inl ⟨_, _, rfl⟩
    · exact .inl ⟨_, _, rfl⟩
    · exact .inl ⟨_, _, rfl⟩
    · refine .inr ⟨_, ?_, rfl⟩
      intro e
      have := congrFun e 0
      simp [vec] at this
  · intro h
    have := h.1
    simp [lenSq, dot, mulMV, diag, vec, initFace] at this
    norm_num at this

/-! ## C62: distance to the cell boundary -/

theorem cauchy (R : Mat ℝ) (u v : V3 ℝ) : ip R u v ^ 2 ≤ lenSq R u * lenSq R v := by
  unfold ip lenSq dot
  generalize mulMV R u = a
  generalize mulMV R v = b
  nlinarith [sq_nonneg (a 0 * b 1 - a 1 * b 0), sq_nonneg (a 0 * b 2 - a 2 * b 0), sq_nonneg (a 1 * b 2 - a 2 * b 1)]

theorem lenSq_neg (R : Mat ℝ) (a : V3 Int) : lenSq R (castV (fun i => -a i)) = lenSq R (castV a) := by
  simp only [lenSq, dot, mulMV, castV]; push_cast; ring

theorem ip_neg (R : Mat ℝ) (a : V3 Int) (x : V3 ℝ) : ip R (castV (fun i => -a i)) x = -ip R (castV a) x := by
  simp only [ip, dot, mulMV, castV]; push_cast; ring

theorem ip_sub (R : Mat ℝ) (a x y : V3 ℝ) : ip R a (fun i => x i - y i) = ip R a x - ip R a y := by
  simp only [ip, dot, mulMV]; ring

theorem bisector_iff (R : Mat ℝ) (a : V3 Int) (z : V3 ℝ) :
    lenSq R z = lenSq R (fun i => z i - (a i : ℝ)) ↔ 2 * ip R (castV a) z = lenSq R (castV a) := by
  have e1 : lenSq R (fun i => z i - (a i : ℝ)) = lenSq R z - 2 * ip R (castV a) z + lenSq R (castV a) := by
    have := lenSq_sub R z (castV a) 1
    simp only [one_mul, castV, mul_one, one_pow] at this
    exact this
  rw [e1]
  constructor <;> intro h <;> linarith

/-- Any point of the plane bisecting the origin and `a` is at least `½|a|(1-2a·x/|a|²)` away from `x`. -/
theorem plane_bound (R : Mat ℝ) (a : V3 Int) (x : V3 ℝ) (hp : 0 < lenSq R (castV a)) (q : ℝ) (hq : 0 ≤ q)
    (h : 2 * q * lenSq R (castV a) ≤ lenSq R (castV a) - 2 * ip R (castV a) x) (r : ℝ)
    (hr : r ^ 2 ≤ q * q * lenSq R (castV a)) : PlaneAtLeast R a x r := by
  intro z hz
  rw [bisector_iff] at hz
  have hc := cauchy R (castV a) (fun i => z i - x i)
  rw [ip_sub] at hc
  refine hr.trans ?_
  set L := lenSq R (castV a)
  have h1 : q * L ≤ ip R (castV a) z - ip R (castV a) x := by linarith
  have h2 : (q * L) ^ 2 ≤ (ip R (castV a) z - ip R (castV a) x) ^ 2 := by
    have : 0 ≤ q * L := mul_nonneg hq hp.le
    exact pow_le_pow_left₀ this h1 2
  have h3 : L * (q * q * L) ≤ L * lenSq R (fun i => z i - x i) := by nlinarith
  exact le_of_mul_le_mul_left h3 hp

/-- What the loop of `boundaryDistance` returns. -/
theorem boundaryLoop_spec (R : Mat ℝ) (iDir : Option (Fin 3)) (x : V3 ℝ) (fs : List Face) (m : ℝ) :
    (boundaryLoop R iDir x fs m = none ∧ ∃ f ∈ fs, considered iDir f ∧ dDiff f x < 0) ∨
    (∃ d, boundaryLoop R iDir x fs m = some d ∧ (∀ f ∈ fs, considered iDir f → 0 ≤ dDiff f x ∧
        d ≤ dDiff f x * dDiff f x * lenSq R (castV f.img)) ∧ d ≤ m ∧
      (d = m ∨ ∃ f ∈ fs, considered iDir f ∧ d = dDiff f x * dDiff f x * lenSq R (castV f.img))) := by
  induction fs generalizing m with
  | nil => exact .inr ⟨m, rfl, by simp, le_refl _, .inl rfl⟩
  | cons f fs ih =>
    unfold boundaryLoop
    by_cases hc : considered iDir f
    · rw [if_pos hc]
      by_cases hd : dDiff f x < 0
      · rw [if_pos hd]
        exact .inl ⟨rfl, f, List.mem_cons_self .., hc, hd⟩
      · rw [if_neg hd]
        simp only [metric_lenSq]
        rcases ih (if dDiff f x * dDiff f x * lenSq R (castV f.img) < m then dDiff f x * dDiff f x * lenSq R (castV f.img) else m)
          with ⟨h1, g, hg, h2⟩ | ⟨d, h1, h2, h3, h4⟩
        · exact .inl ⟨h1, g, List.mem_cons_of_mem _ hg, h2⟩
        · refine .inr ⟨d, h1, ?_, ?_, ?_⟩
          · intro g hg hgc
            rcases List.mem_cons.1 hg with rfl | hg
            · refine ⟨not_lt.1 hd, h3.trans ?_⟩
              split
              · exact le_refl _
              · next hh => exact not_lt.1 hh
            · exact h2 g hg hgc
          · refine h3.trans ?_
            split
            · next hh => exact hh.le
            · exact le_refl _
          · rcases h4 with h4 | ⟨g, hg, h4⟩
            · split at h4
              · exact .inr ⟨f, List.mem_cons_self .., hc, h4⟩
              · exact .inl h4
            · exact .inr ⟨g, List.mem_cons_of_mem _ hg, h4⟩
    · rw [if_neg hc]
      rcases ih m with ⟨h1, g, hg, h2⟩ | ⟨d, h1, h2, h3, h4⟩
      · exact .inl ⟨h1, g, List.mem_cons_of_mem _ hg, h2⟩
      · refine .inr ⟨d, h1, ?_, h3, ?_⟩
        · intro g hg hgc
          rcases List.mem_cons.1 hg with rfl | hg
          · exact absurd hgc hc
          · exact h2 g hg hgc
        · rcases h4 with h4 | ⟨g, hg, h4⟩
          · exact .inl h4
          · exact .inr ⟨g, List.mem_cons_of_mem _ hg, h4⟩

theorem considered_iff (iDir : Option (Fin 3)) (f : Face) : considered iDir f ↔ ∀ k, iDir = some k → f.img k = 0 := by
  cases iDir <;> simp [considered]

theorem dDiff_nonneg_iff {R : Mat ℝ} {f : Face} (h : Good R f) (x : V3 ℝ) : 0 ≤ dDiff f x ↔ Inside R 0 x f.img := by
  rw [inside_iff h]
  have : dPos f x = 0.5 * (1 + dot f.eqn x) := rfl
  rw [this]
  unfold dDiff
  constructor
  · intro h
    have : |dot f.eqn x| ≤ 1 := by linarith
    rw [abs_le] at this
    constructor <;> linarith
  · intro h
    have : |dot f.eqn x| ≤ 1 := by rw [abs_le]; constructor <;> linarith
    linarith

/-- Inside the cell the reported distance is the distance to the nearest bounding plane among those considered: no plane point
is nearer, and some plane point is exactly that near. Outside it is zero. (`big` is the largest representable number; the last
part needs one face whose image is at most that far.) -/
theorem C62_boundaryDistance (big : ℝ) (hbig : 0 < big) (R : Mat ℝ) (hR : det R ≠ 0) (faces : List Face)
    (hf : ∀ f ∈ faces, Made R f) (x : V3 ℝ) (iDir : Option (Fin 3)) :
    ((∃ f ∈ faces, (∀ k, iDir = some k → f.img k = 0) ∧ ¬Inside R 0 x f.img) →
      boundaryDistance big R faces x iDir = 0) ∧
    ((∀ f ∈ faces, (∀ k, iDir = some k → f.img k = 0) → Inside R 0 x f.img) →
      0 ≤ boundaryDistance big R faces x iDir ∧
      (∀ f ∈ faces, (∀ k, iDir = some k → f.img k = 0) →
        PlaneAtLeast R f.img x (boundaryDistance big R faces x iDir) ∧
        PlaneAtLeast R (fun i => -f.img i) x (boundaryDistance big R faces x iDir)) ∧
      ((∃ f ∈ faces, (∀ k, iDir = some k → f.img k = 0) ∧ lenSq R (fun i => (f.img i : ℝ)) ≤ big) →
        ∃ f ∈ faces, (∀ k, iDir = some k → f.img k = 0) ∧ ∃ z, lenSq R (fun i => z i - x i) = boundaryDistance big R faces x iDir ^ 2 ∧
          (lenSq R z = lenSq R (fun i => z i - (f.img i : ℝ)) ∨ lenSq R z = lenSq R (fun i => z i - ((-f.img i : Int) : ℝ))))) := by
  have hg : ∀ f ∈ faces, Good R f := fun f h => made_good R hR f (hf f h)
  have hspec := boundaryLoop_spec R iDir x faces big
  constructor
  · rintro ⟨f, hfm, hc, hi⟩
    unfold boundaryDistance
    rcases hspec with ⟨h1, _⟩ | ⟨d, h1, h2, h3, h4⟩
    · rw [h1]
    · have := (h2 f hfm ((considered_iff iDir f).2 hc)).1
      exact absurd ((dDiff_nonneg_iff (hg f hfm) x).1 this) hi
  · intro hin
    rcases hspec with ⟨h1, f, hfm, hc, hd⟩ | ⟨d, h1, h2, h3, h4⟩
    · exact absurd ((dDiff_nonneg_iff (hg f hfm) x).2 (hin f hfm ((considered_iff iDir f).1 hc))) (not_le.2 hd)
    · have hbd : boundaryDistance big R faces x iDir = Real.sqrt d := by unfold boundaryDistance; rw [h1]
      have hd0 : 0 ≤ d := by
        rcases h4 with h4 | ⟨f, hfm, _, h4⟩
        · rw [h4]; exact hbig.le
        · rw [h4]; exact mul_nonneg (mul_self_nonneg _) (hg f hfm).pos.le
      rw [hbd]
      refine ⟨Real.sqrt_nonneg d, ?_, ?_⟩
      · intro f hfm hc
        obtain ⟨g1, g2⟩ := h2 f hfm ((considered_iff iDir f).2 hc)
        have hgf := hg f hfm
        have he := hgf.eqn x
        have hsq : Real.sqrt d ^ 2 ≤ dDiff f x * dDiff f x * lenSq R (castV f.img) := by rw [Real.sq_sqrt hd0]; exact g2
        have hab := abs_le.1 (le_refl |dot f.eqn x|)
        have hdef : 2 * dDiff f x = 1 - |dot f.eqn x| := by unfold dDiff; ring
        have hp := hgf.pos
        constructor
        · refine plane_bound R f.img x hp (dDiff f x) g1 ?_ _ hsq
          rw [hdef, ← he]
          nlinarith [hab.2]
        · refine plane_bound R _ x (by rw [lenSq_neg]; exact hp) (dDiff f x) g1 ?_ _ (by rw [lenSq_neg]; exact hsq)
          rw [lenSq_neg, ip_neg, hdef]
          nlinarith [hab.1, neg_abs_le (dot f.eqn x)]
      · rintro ⟨f0, hf0, hc0, hl0⟩
        have hnot : d ≠ big := by
          intro e
          obtain ⟨g1, g2⟩ := h2 f0 hf0 ((considered_iff iDir f0).2 hc0)
          have hhalf : dDiff f0 x ≤ 0.5 := by unfold dDiff; linarith [abs_nonneg (dot f0.eqn x)]
          have hl0' : lenSq R (castV f0.img) ≤ big := hl0
          have hp0 := (hg f0 hf0).pos
          have : dDiff f0 x * dDiff f0 x ≤ 0.25 := by nlinarith
          nlinarith
        rcases h4 with h4 | ⟨f, hfm, hc, h4⟩
        · exact absurd h4 hnot
        · refine ⟨f, hfm, (considered_iff iDir f).1 hc, ?_⟩
          have hgf := hg f hfm
          have he := hgf.eqn x
          have hp := hgf.pos
          have hdef : 2 * dDiff f x = 1 - |dot f.eqn x| := by unfold dDiff; ring
          have lin : ∀ s : ℝ, ip R (castV f.img) (fun i => x i + s * castV f.img i) = ip R (castV f.img) x + s * lenSq R (castV f.img) := by
            intro s; simp only [ip, lenSq, dot, mulMV]; ring
          have len : ∀ s : ℝ, lenSq R (fun i => (x i + s * castV f.img i) - x i) = s ^ 2 * lenSq R (castV f.img) := by
            intro s; simp only [lenSq, dot, mulMV]; ring
          rw [Real.sq_sqrt hd0]
          rcases le_total 0 (dot f.eqn x) with hs | hs
          · refine ⟨fun i => x i + dDiff f x * castV f.img i, by rw [len, h4]; ring, .inl ?_⟩
            rw [bisector_iff, lin]
            rw [abs_of_nonneg hs] at hdef
            linear_combination (-1) * he + lenSq R (castV f.img) * hdef
          · refine ⟨fun i => x i + (-dDiff f x) * castV f.img i, by rw [len, h4]; ring, .inr ?_⟩
            refine (bisector_iff R (fun i => -f.img i) _).2 ?_
            rw [ip_neg, lenSq_neg, lin]
            rw [abs_of_nonpos hs] at hdef
            linear_combination he + lenSq R (castV f.img) * hdef

theorem inRadiusLoop_spec (R : Mat ℝ) (iDir : Option (Fin 3)) (fs : List Face) (m : ℝ) :
    (∀ f ∈ fs, considered iDir f → inRadiusLoop R iDir fs m ≤ lenSq R (castV f.img)) ∧ inRadiusLoop R iDir fs m ≤ m ∧
    (inRadiusLoop R iDir fs m = m ∨ ∃ f ∈ fs, considered iDir f ∧ inRadiusLoop R iDir fs m = lenSq R (castV f.img)) := by
  induction fs generalizing m with
  | nil => exact ⟨by simp, le_refl _, .inl rfl⟩
  | cons f fs ih =>
    unfold inRadiusLoop
    by_cases hc : considered iDir f
    · rw [if_pos hc]
      simp only [metric_lenSq]
      obtain ⟨h1, h2, h3⟩ := ih (if lenSq R (castV f.img) < m then lenSq R (castV f.img) else m)
      refine ⟨?_, ?_, ?_⟩
      · intro g hg hgc
        rcases List.mem_cons.1 hg with rfl | hg
        · refine h2.trans ?_
          split
          · exact le_refl _
          · next hh => exact not_lt.1 hh
        · exact h1 g hg hgc
      · refine h2.trans ?_
        split
        · next hh => exact hh.le
        · exact le_refl _
      · rcases h3 with h3 | ⟨g, hg, h3⟩
        · by_cases hh : lenSq R (castV f.img) < m
          · rw [if_pos hh] at h3 ⊢; exact .inr ⟨f, List.mem_cons_self .., hc, h3⟩
          · rw [if_neg hh] at h3 ⊢; exact .inl h3
        · exact .inr ⟨g, List.mem_cons_of_mem _ hg, h3⟩
    · rw [if_neg hc]
      obtain ⟨h1, h2, h3⟩ := ih m
      refine ⟨?_, h2, ?_⟩
      · intro g hg hgc
        rcases List.mem_cons.1 hg with rfl | hg
        · exact absurd hgc hc
        · exact h1 g hg hgc
      · rcases h3 with h3 | ⟨g, hg, h3⟩
        · exact .inl h3
        · exact .inr ⟨g, List.mem_cons_of_mem _ hg, h3⟩

/-- The in-radius is that of a sphere about the origin inside all considered faces, and (given a face whose image is at most
`big` away squared) the largest one: it touches one of the bounding planes. -/
theorem C62_inRadius (big : ℝ) (hbig : 0 ≤ big) (R : Mat ℝ) (hR : det R ≠ 0) (faces : List Face)
    (hf : ∀ f ∈ faces, Made R f) (iDir : Option (Fin 3)) :
    (∀ x, lenSq R x ≤ inRadius big R faces iDir ^ 2 →
      ∀ f ∈ faces, (∀ k, iDir = some k → f.img k = 0) → Inside R 0 x f.img) ∧
    ((∃ f ∈ faces, (∀ k, iDir = some k → f.img k = 0) ∧ lenSq R (fun i => (f.img i : ℝ)) ≤ big) →
      ∃ f ∈ faces, (∀ k, iDir = some k → f.img k = 0) ∧ ∃ z, lenSq R z = inRadius big R faces iDir ^ 2 ∧
        lenSq R z = lenSq R (fun i => z i - (f.img i : ℝ))) := by
  have hg : ∀ f ∈ faces, Good R f := fun f h => made_good R hR f (hf f h)
  obtain ⟨h1, h2, h3⟩ := inRadiusLoop_spec R iDir faces big
  have hnn : 0 ≤ inRadiusLoop R iDir faces big := by
    rcases h3 with h3 | ⟨f, hfm, _, h3⟩
    · rw [h3]; exact hbig
    · rw [h3]; exact lenSq_nonneg _ _
  have hsq : inRadius big R faces iDir ^ 2 = inRadiusLoop R iDir faces big / 4 := by
    unfold inRadius; rw [mul_pow, Real.sq_sqrt hnn]; norm_num; ring
  rw [hsq]
  constructor
  · intro x hx f hfm hc
    have hgf := hg f hfm
    have hle := h1 f hfm ((considered_iff iDir f).2 hc)
    have hcs := cauchy R (castV f.img) x
    have hp := hgf.pos
    have hi := dPos_ip hgf x
    rw [inside_iff hgf]
    have hx' : lenSq R x ≤ lenSq R (castV f.img) / 4 := by linarith
    have : (2 * ip R (castV f.img) x) ^ 2 ≤ lenSq R (castV f.img) ^ 2 := by nlinarith
    have hab := abs_le_of_sq_le_sq' this hp.le
    constructor <;> nlinarith [hab.1, hab.2]
  · rintro ⟨f0, hf0, hc0, hl0⟩
    have hex : ∃ f ∈ faces, considered iDir f ∧ inRadiusLoop R iDir faces big = lenSq R (castV f.img) := by
      rcases h3 with h3 | h3
      · have := h1 f0 hf0 ((considered_iff iDir f0).2 hc0)
        exact ⟨f0, hf0, (considered_iff iDir f0).2 hc0, le_antisymm this (by rw [h3]; exact hl0)⟩
      · exact h3
    obtain ⟨f, hfm, hc, he⟩ := hex
    refine ⟨f, hfm, (considered_iff iDir f).1 hc, fun i => (1/2) * castV f.img i, ?_, ?_⟩
    · rw [he]; simp only [lenSq, dot, mulMV]; ring
    · rw [bisector_iff]; simp only [lenSq, ip, dot, mulMV]; ring

/-! ## C29 -/

theorem neighbours_all (tr : Fin 3 → Bool) (imgs : List (V3 Int)) : getNeighbours tr imgs = imgs := by
  unfold getNeighbours
  have : ∀ (l acc : List (V3 Int)), l.foldl (fun acc img => match neighbourInner tr img [0, 1, 2] with | () => acc ++ [img]) acc
      = acc ++ l := by
    intro l
    induction l with
    | nil => intro acc; simp
    | cons a l ih => intro acc; rw [List.foldl_cons, ih]; simp
  simpa using this imgs []

/-- What holds of the neighbour list: it is complete, and free of truncated components if no direction is truncated or no face
has an image with such a component. The full claim (no vector with a component along a truncated direction) fails, see
`C29_violation`. -/
theorem C29_neighbours_partial (tr : Fin 3 → Bool) (imgs : List (V3 Int)) :
    (∀ v ∈ imgs, (∀ k, tr k = true → v k = 0) → v ∈ getNeighbours tr imgs) ∧
    ((∀ v ∈ imgs, ∀ k, tr k = true → v k = 0) → ∀ v ∈ getNeighbours tr imgs, ∀ k, tr k = true → v k = 0) := by
  rw [neighbours_all]
  exact ⟨fun v h _ => h, fun h => h⟩

/-- The list for a cubic cell truncated along its third direction contains the neighbour along that direction: the inner
`continue` does not skip the insertion. -/
theorem C29_violation : ∃ (tr : Fin 3 → Bool) (R : Mat ℝ) (faces : List Face), det R ≠ 0 ∧ (∀ f ∈ faces, Made R f) ∧
    ∃ v ∈ getNeighbours tr (faces.map Face.img), ∃ k, tr k = true ∧ v k ≠ 0 := by
  refine ⟨fun k => k == 2, diag 1 1 1, [initFace (diag 1 1 1) 2 true], by simp [det, box, dot, cross, row, vec, diag], ?_, ?_⟩
  · intro f hf
    simp only [List.mem_cons, List.not_mem_nil, or_false] at hf
    exact .inl ⟨_, _, hf⟩
  · rw [neighbours_all]
    exact ⟨_, List.mem_cons_self .., 2, by decide, by simp [initFace]⟩

-- Six neighbours of a cubic cell, nothing truncated.
example : getNeighbours (fun _ => false) [vec 1 0 0, vec (-1) 0 0, vec 0 1 0, vec 0 (-1) 0, vec 0 0 1, vec 0 0 (-1)]
    = [vec 1 0 0, vec (-1) 0 0, vec 0 1 0, vec 0 (-1) 0, vec 0 0 1, vec 0 0 (-1)] := neighbours_all _ _

end Jdftx.WS
