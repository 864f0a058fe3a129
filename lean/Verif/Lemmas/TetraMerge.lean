import Verif.Lemmas.TetraCoalesce

/-! # Lemmas for the tetrahedron density of states: merging the bands -/
set_option linter.unusedSectionVars false

namespace Jdftx.Tetra
variable {K : Type} [Field K] [LinearOrder K] [IsStrictOrderedRing K]

/-- Zeros. -/
def zs (l : List K) : List K := l.map fun _ => 0

theorem addFrom_length (n : Nat) (a vs : List K) : (addFrom n a vs).length = a.length := by
  induction a generalizing n vs with
  | nil => cases n <;> rfl
  | cons x a ih =>
    cases n with
    | zero => cases vs with
      | nil => rfl
      | cons v vs => simp [addFrom, ih]
    | succ n => simp [addFrom, ih]

theorem addFrom_add (n : Nat) (a vs : List K) : addFrom n a vs = List.zipWith (· + ·) a (addFrom n (zs a) vs) := by
  have hz : ∀ a : List K, a = List.zipWith (· + ·) a (zs a) := by
    intro a
    induction a with
    | nil => rfl
    | cons x a ih => simp only [zs, List.map_cons, List.zipWith_cons_cons, add_zero]; rw [← zs, ← ih]
  induction a generalizing n vs with
  | nil => cases n <;> rfl
  | cons x a ih =>
    cases n with
    | zero => cases vs with
      | nil => simp only [addFrom, zs, List.map_cons]; exact hz (x :: a)
      | cons v vs =>
        simp only [addFrom, zs, List.map_cons, List.zipWith_cons_cons, zero_add]
        rw [ih]; rfl
    | succ n =>
      simp only [addFrom, zs, List.map_cons, List.zipWith_cons_cons, add_zero]
      rw [ih]; rfl

theorem area_add (cs : List K) : ∀ a b : List K, a.length = cs.length → b.length = cs.length → area (cs.zip (List.zipWith (· + ·) a b)) = area (cs.zip a) + area (cs.zip b) := by
  induction cs with
  | nil => intro a b _ _; simp [area]
  | cons c cs ih =>
    intro a b ha hb
    match a, b, ha, hb with
    | x :: a, y :: b, ha, hb =>
      cases cs with
      | nil => simp [area]
      | cons c' cs =>
        match a, b, ha, hb with
        | x' :: a, y' :: b, ha, hb =>
          have := ih (x' :: a) (y' :: b) (by simpa using ha) (by simpa using hb)
          simp only [List.zipWith_cons_cons, List.zip_cons_cons, area] at this ⊢
          rw [this]; ring

theorem area_zs (cs l : List K) : area (cs.zip (zs l)) = 0 := by
  induction cs generalizing l with
  | nil => simp [area]
  | cons c cs ih =>
    cases l with
    | nil => simp [zs, area]
    | cons x l =>
      cases cs with
      | nil => simp [zs, area]
      | cons c' cs =>
        cases l with
        | nil => simp [zs, area]
        | cons y l =>
          have := ih (y :: l)
          simp only [zs, List.map_cons, List.zip_cons_cons, area] at this ⊢
          rw [this]; ring

theorem area_prefix (pre : List K) (a c : K) (suf : List K) (v : K) (vs : List K) :
    area ((pre ++ a :: c :: suf).zip (addFrom (pre.length + 1) (zs (pre ++ a :: c :: suf)) (v :: vs))) = (c - a) * v / 2 + area ((c :: suf).zip (addFrom 0 (zs (c :: suf)) (v :: vs))) := by
  induction pre with
  | nil =>
    simp only [List.nil_append, List.length_nil, zs, List.map_cons, addFrom, List.zip_cons_cons, area]
    ring
  | cons p pre ih =>
    have e2 : ∃ x l', (pre ++ a :: c :: suf).zip (addFrom (pre.length + 1) (zs (pre ++ a :: c :: suf)) (v :: vs)) = (x, 0) :: l' := by
      cases pre with
      | nil => exact ⟨_, _, rfl⟩
      | cons p' pre => exact ⟨_, _, rfl⟩
    obtain ⟨x, l', hl'⟩ := e2
    have e3 : (p :: pre ++ a :: c :: suf).zip (addFrom ((p :: pre).length + 1) (zs (p :: pre ++ a :: c :: suf)) (v :: vs)) = (p, 0) :: (x, 0) :: l' := by
      rw [← hl']; rfl
    rw [e3, ← ih, hl']
    simp only [area]
    ring

/-- Linear interpolation. -/
def interp (l r : K × K) (e : K) : K := (1 - (e - l.1) / (r.1 - l.1)) * l.2 + (e - l.1) / (r.1 - l.1) * r.2

theorem interp_right (l r : K × K) (h : l.1 < r.1) : interp l r r.1 = r.2 := by
  have : r.1 - l.1 ≠ 0 := ne_of_gt (sub_pos.2 h)
  unfold interp
  rw [div_self this]; ring

theorem interp_left (l r : K × K) : interp l r l.1 = l.2 := by
  unfold interp; simp

theorem interp_area (l r : K × K) (h : l.1 < r.1) (e e' : K) :
    (e' - e) * (interp l r e + interp l r e') / 2 + (r.1 - e') * (interp l r e' + r.2) / 2 = (r.1 - e) * (interp l r e + r.2) / 2 := by
  have : r.1 - l.1 ≠ 0 := ne_of_gt (sub_pos.2 h)
  unfold interp
  field_simp
  ring

/-- The end of a spline in the common list of energies, and its scale factor. -/
def EndOk (eStop sT : K) (L : List K) : Prop :=
  ∃ X a n Y, L = X ++ a :: eStop :: n :: Y ∧ a < eStop ∧ (∀ x ∈ X, x < eStop) ∧ sT * (n - a) = eStop - a

theorem sweep_cons (eStart eStop sS sT e : K) (cs : List K) (l r : K × K) (rest : List (K × K)) :
    sweep eStart eStop sS sT (e :: cs) l r rest =
      if e = eStop then .ok [(if e = eStop then sT else if e = eStart then sS else 1) * interp l r e]
      else match cs with
        | [] => .error .ub
        | e' :: _ =>
          if r.1 < e' then match rest with
            | [] => .error .ub
            | r' :: rest' => do
              let vs ← sweep eStart eStop sS sT cs r r' rest'
              return (if e = eStop then sT else if e = eStart then sS else 1) * interp l r e :: vs
          else do
            let vs ← sweep eStart eStop sS sT cs l r rest
            return (if e = eStop then sT else if e = eStart then sS else 1) * interp l r e :: vs := rfl

theorem sweep_spec (eStart eStop sS sT : K) (cs : List K) : ∀ (e : K) (l r : K × K) (rest : List (K × K)), (e :: cs).Pairwise (· ≤ ·) → e < eStop → (∀ x ∈ cs, x ≠ eStart) →
    e ≤ r.1 → l.1 < r.1 → ((r :: rest).map Prod.fst).Pairwise (· < ·) → ((r :: rest).getLast (by simp)).1 = eStop → (∀ p ∈ r :: rest, p.1 ∈ e :: cs) → EndOk eStop sT (e :: cs) →
    ∃ vs, sweep eStart eStop sS sT (e :: cs) l r rest = .ok ((if e = eStart then sS else 1) * interp l r e :: vs) ∧
      area ((e :: cs).zip (addFrom 0 (zs (e :: cs)) ((if e = eStart then sS else 1) * interp l r e :: vs))) =
        area ((e, interp l r e) :: r :: rest) + (cs.headD 0 - e) * ((if e = eStart then sS else 1) * interp l r e - interp l r e) / 2 := by
  induction cs with
  | nil =>
    rintro e l r rest _ _ _ _ _ _ _ _ ⟨X, a, n, Y, h, _⟩
    have := congrArg List.length h
    simp only [List.length_append, List.length_cons, List.length_nil] at this
    omega
  | cons e' cs ih =>
    intro e l r rest hs he hst her hlr hr hlast hmem hend
    have hs' := List.pairwise_cons.1 hs
    have hee : e ≤ e' := hs'.1 e' (by simp)
    have hr' := List.pairwise_cons.1 (by simpa using hr : (r.1 :: rest.map Prod.fst).Pairwise (· < ·))
    have hne : e ≠ eStop := ne_of_lt he
    -- upper bound on all spline energies
    have hub : ∀ p ∈ r :: rest, p.1 ≤ eStop := by
      intro p hp
      rw [← hlast]
      rw [← List.dropLast_append_getLast (l := r :: rest) (by simp)] at hp hr
      rw [List.map_append] at hr
      rcases List.mem_append.1 hp with h | h
      · exact le_of_lt ((List.pairwise_append.1 hr).2.2 p.1 (List.mem_map_of_mem h) _ (by simp))
      · rw [List.mem_singleton.1 h]
    rw [sweep_cons, if_neg hne, if_neg hne]
    generalize (if e = eStart then sS else 1) = s
    simp only
    -- energies of the list that lie before e'
    have hpin : ∀ x, x ∈ e :: e' :: cs → x < e' → x = e := by
      intro x hx hlt
      rcases List.mem_cons.1 hx with h | h
      · exact h
      · rcases List.mem_cons.1 h with h | h
        · exact absurd hlt (by rw [h]; exact lt_irrefl _)
        · exact absurd hlt (not_lt.2 ((List.pairwise_cons.1 hs'.2).1 x h))
    obtain ⟨X, a, n, Y, hL, ha, hX, hsT⟩ := hend
    cases X with
    | nil =>
      -- the next energy is the last one of the spline
      simp only [List.nil_append, List.cons.injEq] at hL
      obtain ⟨rfl, rfl, rfl⟩ := hL
      by_cases hadv : r.1 < e'
      · rw [if_pos hadv]
        have hre : r.1 = e := hpin r.1 (hmem r (by simp)) hadv
        cases rest with
        | nil =>
          simp only [List.getLast_singleton] at hlast
          exact absurd hadv (by rw [hlast]; exact lt_irrefl _)
        | cons r' rest' =>
          have h1 : r.1 < r'.1 := hr'.1 r'.1 (by simp)
          have h2 : r'.1 = e' := by
            refine le_antisymm (hub r' (by simp)) (not_lt.1 fun h => ?_)
            have := hpin r'.1 (hmem r' (by simp)) h
            rw [this, hre] at h1
            exact lt_irrefl _ h1
          have h3 : rest' = [] := by
            cases rest' with
            | nil => rfl
            | cons q _ =>
              have h4 := hr'.2
              simp only [List.map_cons] at h4
              have h5 := (List.pairwise_cons.1 h4).1 q.1 (by simp)
              exact absurd (lt_of_lt_of_le h5 (hub q (by simp))) (by rw [h2]; exact lt_irrefl _)
          subst h3
          simp only
          rw [sweep_cons, if_pos rfl, if_pos rfl]
          refine ⟨[sT * interp r r' e'], rfl, ?_⟩
          have e1 : interp r r' e' = r'.2 := by rw [← h2]; exact interp_right r r' h1
          have e2 : interp l r e = r.2 := by rw [← hre]; exact interp_right l r hlr
          rw [e1, e2]
          have hz := area_zs (n :: Y) (n :: Y)
          simp only [zs, List.map_cons, addFrom, List.zip_cons_cons, area, zero_add, List.headD_cons] at hz ⊢
          rw [hz, hre, h2]
          linear_combination (r'.2 / 2) * hsT
      · rw [if_neg hadv]
        have hre : r.1 = e' := le_antisymm (hub r (by simp)) (not_lt.1 hadv)
        have h3 : rest = [] := by
          cases rest with
          | nil => rfl
          | cons q _ =>
            have h5 := hr'.1 q.1 (by simp)
            exact absurd (lt_of_lt_of_le h5 (hub q (by simp))) (by rw [hre]; exact lt_irrefl _)
        subst h3
        rw [sweep_cons, if_pos rfl, if_pos rfl]
        refine ⟨[sT * interp l r e'], rfl, ?_⟩
        have e1 : interp l r e' = r.2 := by rw [← hre]; exact interp_right l r hlr
        rw [e1]
        have hz := area_zs (n :: Y) (n :: Y)
        simp only [zs, List.map_cons, addFrom, List.zip_cons_cons, area, zero_add, List.headD_cons] at hz ⊢
        rw [hz, hre]
        linear_combination (r.2 / 2) * hsT
    | cons x X =>
      simp only [List.cons_append, List.cons.injEq] at hL
      obtain ⟨rfl, hL⟩ := hL
      have he' : e' < eStop := by
        cases X with
        | nil => simp only [List.nil_append, List.cons.injEq] at hL; rw [hL.1]; exact ha
        | cons y X =>
          simp only [List.cons_append, List.cons.injEq] at hL
          rw [hL.1]; exact hX y (by simp)
      have hend' : EndOk eStop sT (e' :: cs) := ⟨X, a, n, Y, hL, ha, fun z hz => hX z (by simp [hz]), hsT⟩
      have hst' : ∀ x ∈ cs, x ≠ eStart := fun x hx => hst x (by simp [hx])
      have hne' : ¬ e' = eStart := hst e' (by simp)
      by_cases hadv : r.1 < e'
      · rw [if_pos hadv]
        have hre : r.1 = e := hpin r.1 (hmem r (by simp)) hadv
        cases rest with
        | nil =>
          simp only [List.getLast_singleton] at hlast
          exact absurd hadv (by rw [hlast]; exact not_lt.2 (le_of_lt he'))
        | cons r' rest' =>
          have h1 : r.1 < r'.1 := hr'.1 r'.1 (by simp)
          have hge : e' ≤ r'.1 := by
            refine not_lt.1 fun h => ?_
            have := hpin r'.1 (hmem r' (by simp)) h
            rw [this, hre] at h1
            exact lt_irrefl _ h1
          have hlater : ∀ p ∈ r' :: rest', e' ≤ p.1 := by
            intro p hp
            rcases List.mem_cons.1 hp with rfl | hp
            · exact hge
            · have h4 := hr'.2
              simp only [List.map_cons] at h4
              exact le_trans hge (le_of_lt ((List.pairwise_cons.1 h4).1 p.1 (List.mem_map_of_mem hp)))
          have hmem' : ∀ p ∈ r' :: rest', p.1 ∈ e' :: cs := by
            intro p hp
            rcases List.mem_cons.1 (hmem p (by simp [List.mem_cons.1 hp])) with h | h
            · have h5 := hlater p hp
              rw [h] at h5
              rw [h, le_antisymm hee h5]
              simp
            · exact h
          obtain ⟨vs, g1, g2⟩ := ih e' r r' rest' hs'.2 he' hst' hge h1 hr'.2 (by simpa using hlast) hmem' hend'
          rw [if_neg hne', one_mul] at g1 g2
          simp only
          refine ⟨interp r r' e' :: vs, ?_, ?_⟩
          · rw [g1]; rfl
          · have e2 : interp l r e = r.2 := by rw [← hre]; exact interp_right l r hlr
            rw [e2]
            have g3 := interp_area r r' h1 r.1 e'
            rw [interp_left] at g3
            simp only [zs, List.map_cons, addFrom, List.zip_cons_cons, area, zero_add, List.headD_cons, sub_self, mul_zero, zero_div, add_zero] at g2 ⊢
            rw [g2, ← hre]
            linear_combination g3
      · rw [if_neg hadv]
        have hge : e' ≤ r.1 := not_lt.1 hadv
        have hmem' : ∀ p ∈ r :: rest, p.1 ∈ e' :: cs := by
          intro p hp
          have hpge : e' ≤ p.1 := by
            rcases List.mem_cons.1 hp with rfl | hp
            · exact hge
            · exact le_trans hge (le_of_lt (hr'.1 p.1 (List.mem_map_of_mem hp)))
          rcases List.mem_cons.1 (hmem p hp) with h | h
          · rw [h] at hpge
            rw [h, le_antisymm hee hpge]
            simp
          · exact h
        obtain ⟨vs, g1, g2⟩ := ih e' l r rest hs'.2 he' hst' hge hlr hr hlast hmem' hend'
        rw [if_neg hne', one_mul] at g1 g2
        refine ⟨interp l r e' :: vs, ?_, ?_⟩
        · rw [g1]; rfl
        · have g3 := interp_area l r hlr e e'
          simp only [zs, List.map_cons, addFrom, List.zip_cons_cons, area, zero_add, List.headD_cons, sub_self, mul_zero, zero_div, add_zero] at g2 ⊢
          rw [g2]
          linear_combination g3

theorem dup_append (bd P Q : List K) : dupNodes bd (P ++ Q) = dupNodes bd P ++ dupNodes bd Q := by simp [dupNodes]

theorem dup_mem (bd es : List K) (x : K) : x ∈ dupNodes bd es ↔ x ∈ es := by
  unfold dupNodes
  rw [List.mem_flatMap]
  constructor
  · rintro ⟨e, he, h⟩
    split at h <;> simp at h <;> rw [h] <;> exact he
  · intro h
    exact ⟨x, h, by split <;> simp⟩

theorem dup_sorted (bd es : List K) (h : es.Pairwise (· < ·)) : (dupNodes bd es).Pairwise (· ≤ ·) := by
  induction es with
  | nil => simp [dupNodes]
  | cons x es ih =>
    have hx := List.pairwise_cons.1 h
    have e : dupNodes bd (x :: es) = (if x ∈ bd then [x, x] else [x]) ++ dupNodes bd es := rfl
    rw [e, List.pairwise_append]
    refine ⟨by split <;> simp, ih hx.2, ?_⟩
    intro a ha b hb
    have : a = x := by split at ha <;> simpa using ha
    rw [this]
    exact le_of_lt (hx.1 b ((dup_mem bd es b).1 hb))

theorem dup_cons (bd : List K) (n : K) (Q : List K) : ∃ B, dupNodes bd (n :: Q) = n :: B := by
  have e : dupNodes bd (n :: Q) = (if n ∈ bd then [n, n] else [n]) ++ dupNodes bd Q := rfl
  rw [e]
  split <;> exact ⟨_, rfl⟩

theorem dup_snoc (bd : List K) (P : List K) (a : K) : ∃ A, dupNodes bd (P ++ [a]) = A ++ [a] := by
  rw [dup_append]
  have e : dupNodes bd [a] = (if a ∈ bd then [a, a] else [a]) ++ [] := rfl
  rw [e]
  split
  · exact ⟨dupNodes bd P ++ [a], by simp⟩
  · exact ⟨dupNodes bd P, by simp⟩

theorem split_at (es : List K) (h : es.Pairwise (· < ·)) (x : K) (hx : x ∈ es) :
    ∃ P Q, es = P ++ x :: Q ∧ (es.filter fun y => decide (y < x)) = P ∧ (es.filter fun y => decide (x < y)) = Q := by
  obtain ⟨P, Q, rfl⟩ := List.append_of_mem hx
  have hp := List.pairwise_append.1 h
  have hq := List.pairwise_cons.1 hp.2.1
  refine ⟨P, Q, rfl, ?_, ?_⟩
  · rw [List.filter_append, List.filter_cons_of_neg (by simp), List.filter_eq_self.2 (fun a ha => by simpa using hp.2.2 a ha x (by simp)),
      List.filter_eq_nil_iff.2 (fun a ha => by simpa using le_of_lt (hq.1 a ha)), List.append_nil]
  · rw [List.filter_append, List.filter_cons_of_neg (by simp), List.filter_eq_nil_iff.2 (fun a ha => by simpa using le_of_lt (hp.2.2 a ha x (by simp))),
      List.nil_append, List.filter_eq_self.2 (fun a ha => by simpa using hq.1 a ha)]

theorem neighbours_spec (P' Q' : List K) (x a n : K) (h : (P' ++ [a] ++ x :: n :: Q').Pairwise (· < ·)) : neighbours (P' ++ [a] ++ x :: n :: Q') x = .ok (a, n) := by
  have hp := List.pairwise_append.1 h
  have hq := List.pairwise_cons.1 hp.2.1
  have e1 : ((P' ++ [a] ++ x :: n :: Q').filter fun y => decide (y < x)) = P' ++ [a] := by
    rw [List.filter_append, List.filter_cons_of_neg (by simp), List.filter_eq_self.2 (fun b hb => by simpa using hp.2.2 b hb x (by simp)),
      List.filter_eq_nil_iff.2 (fun b hb => by simpa using le_of_lt (hq.1 b hb)), List.append_nil]
  have e2 : ((P' ++ [a] ++ x :: n :: Q').filter fun y => decide (x < y)) = n :: Q' := by
    rw [List.filter_append, List.filter_cons_of_neg (by simp), List.filter_eq_nil_iff.2 (fun b hb => by simpa using le_of_lt (hp.2.2 b hb x (by simp))),
      List.nil_append, List.filter_eq_self.2 (fun b hb => by simpa using hq.1 b hb)]
  unfold neighbours
  rw [e1, e2]
  simp

theorem exists_snoc (P : List K) (h : P ≠ []) : ∃ P' a, P = P' ++ [a] := ⟨P.dropLast, P.getLast h, (List.dropLast_append_getLast h).symm⟩

/-- The common list of energies around the start of a spline. -/
theorem startSplit (lefts rights es : List K) (hs : es.Pairwise (· < ·)) (x : K) (hx : x ∈ es) (hl : x ∈ lefts) (hafter : ∃ y ∈ es, x < y) (hbefore : x ∈ rights → ∃ y ∈ es, y < x) :
    ∃ sS A a n B, edgeScale lefts rights es true x = .ok sS ∧ dupNodes (es.filter fun e => decide (e ∈ lefts) != decide (e ∈ rights)) es = A ++ a :: x :: n :: B ∧ a ≤ x ∧ x < n ∧ sS * (n - a) = n - x := by
  obtain ⟨P, Q, he, _, hQ⟩ := split_at es hs x hx
  have hQne : ∃ n Q', Q = n :: Q' := by
    cases hq : Q with
    | nil =>
      obtain ⟨y, hy, hxy⟩ := hafter
      have : y ∈ (es.filter fun y => decide (x < y)) := List.mem_filter.2 ⟨hy, by simpa using hxy⟩
      rw [hQ, hq] at this
      simp at this
    | cons n Q' => exact ⟨n, Q', rfl⟩
  obtain ⟨n, Q', rfl⟩ := hQne
  set bd := es.filter fun e => decide (e ∈ lefts) != decide (e ∈ rights) with hbd
  have hs0 := hs
  rw [he] at hs
  have hp := List.pairwise_append.1 hs
  have hxn : x < n := (List.pairwise_cons.1 hp.2.1).1 n (by simp)
  obtain ⟨B, hB⟩ := dup_cons bd n Q'
  have ecs : dupNodes bd es = dupNodes bd P ++ ((if x ∈ bd then [x, x] else [x]) ++ n :: B) := by
    rw [he, dup_append, ← hB]; rfl
  by_cases hr : x ∈ rights
  · have hnb : x ∉ bd := by
      intro h
      have := (List.mem_filter.1 h).2
      simp [hl, hr] at this
    have hPne : P ≠ [] := by
      rintro rfl
      obtain ⟨y, hy, hyx⟩ := hbefore hr
      rw [he] at hy
      rcases List.mem_cons.1 hy with h | h
      · exact absurd hyx (by rw [h]; exact lt_irrefl _)
      · exact absurd hyx (not_lt.2 (le_of_lt ((List.pairwise_cons.1 hp.2.1).1 y h)))
    obtain ⟨P', a, rfl⟩ := exists_snoc P hPne
    have hax : a < x := hp.2.2 a (by simp) x (by simp)
    obtain ⟨A, hA⟩ := dup_snoc bd P' a
    refine ⟨(n - x) / (n - a), A, a, n, B, ?_, ?_, le_of_lt hax, hxn, ?_⟩
    · unfold edgeScale
      rw [if_pos ⟨hl, hr⟩, he, neighbours_spec P' Q' x a n (by simpa using hs)]
      rfl
    · rw [ecs, hA, if_neg hnb]; simp
    · have : n - a ≠ 0 := ne_of_gt (sub_pos.2 (lt_trans hax hxn))
      field_simp
  · have hb : x ∈ bd := List.mem_filter.2 ⟨hx, by simp [hl, hr]⟩
    refine ⟨1, dupNodes bd P, x, n, B, ?_, ?_, le_rfl, hxn, by ring⟩
    · unfold edgeScale; rw [if_neg (fun h => hr h.2)]
    · rw [ecs, if_pos hb]; rfl

/-- The common list of energies around the end of a spline. -/
theorem endSplit (lefts rights es : List K) (hs : es.Pairwise (· < ·)) (x : K) (hx : x ∈ es) (hr : x ∈ rights) (hbefore : ∃ y ∈ es, y < x) (hafter : x ∈ lefts → ∃ y ∈ es, x < y) :
    ∃ sT, edgeScale lefts rights es false x = .ok sT ∧ EndOk x sT (dupNodes (es.filter fun e => decide (e ∈ lefts) != decide (e ∈ rights)) es) := by
  obtain ⟨P, Q, he, hP, _⟩ := split_at es hs x hx
  have hPne : P ≠ [] := by
    rintro rfl
    obtain ⟨y, hy, hyx⟩ := hbefore
    have : y ∈ (es.filter fun y => decide (y < x)) := List.mem_filter.2 ⟨hy, by simpa using hyx⟩
    rw [hP] at this
    simp at this
  obtain ⟨P', a, rfl⟩ := exists_snoc P hPne
  set bd := es.filter fun e => decide (e ∈ lefts) != decide (e ∈ rights) with hbd
  have hs0 := hs
  rw [he] at hs
  have hp := List.pairwise_append.1 hs
  have hax : a < x := hp.2.2 a (by simp) x (by simp)
  obtain ⟨A, hA⟩ := dup_snoc bd P' a
  have hAlt : ∀ y ∈ A, y < x := by
    intro y hy
    have : y ∈ dupNodes bd (P' ++ [a]) := by rw [hA]; simp [hy]
    exact hp.2.2 y ((dup_mem _ _ _).1 this) x (by simp)
  have ecs : dupNodes bd es = A ++ [a] ++ ((if x ∈ bd then [x, x] else [x]) ++ dupNodes bd Q) := by
    rw [he, dup_append, ← hA]; rfl
  by_cases hl : x ∈ lefts
  · have hnb : x ∉ bd := by
      intro h
      have := (List.mem_filter.1 h).2
      simp [hl, hr] at this
    obtain ⟨n, Q', rfl⟩ : ∃ n Q', Q = n :: Q' := by
      cases Q with
      | nil =>
        obtain ⟨y, hy, hyx⟩ := hafter hl
        rw [he] at hy
        rcases List.mem_append.1 hy with h | h
        · exact absurd hyx (not_lt.2 (le_of_lt (hp.2.2 y h x (by simp))))
        · simp only [List.mem_singleton] at h
          exact absurd hyx (by rw [h]; exact lt_irrefl _)
      | cons n Q' => exact ⟨n, Q', rfl⟩
    have hxn : x < n := (List.pairwise_cons.1 hp.2.1).1 n (by simp)
    obtain ⟨B, hB⟩ := dup_cons bd n Q'
    refine ⟨(x - a) / (n - a), ?_, A, a, n, B, ?_, hax, hAlt, ?_⟩
    · unfold edgeScale
      rw [if_pos ⟨hl, hr⟩, he, neighbours_spec P' Q' x a n (by simpa using hs)]
      rfl
    · rw [ecs, if_neg hnb, hB]; simp
    · have : n - a ≠ 0 := ne_of_gt (sub_pos.2 (lt_trans hax hxn))
      field_simp
  · have hb : x ∈ bd := List.mem_filter.2 ⟨hx, by simp [hl, hr]⟩
    refine ⟨1, ?_, A, a, x, dupNodes bd Q, ?_, hax, hAlt, by ring⟩
    · unfold edgeScale; rw [if_neg (fun h => hl h.1)]
    · rw [ecs, if_pos hb]; simp

/-- A usable spline: at least two points, energies increasing. -/
def Spl (s : List (K × K)) : Prop := 2 ≤ s.length ∧ (s.map Prod.fst).Pairwise (· < ·)

theorem addSpline_spec (lefts rights es : List K) (hs : es.Pairwise (· < ·)) (s : List (K × K)) (hspl : Spl s) (hes : ∀ p ∈ s, p.1 ∈ es)
    (hl : ∀ l, s.head? = some l → l.1 ∈ lefts) (hr : ∀ z, s.getLast? = some z → z.1 ∈ rights) (hbefore : ∀ x ∈ rights, ∃ y ∈ es, y < x) (hafter : ∀ x ∈ lefts, ∃ y ∈ es, x < y)
    (vals : List K) (hv : vals.length = (dupNodes (es.filter fun e => decide (e ∈ lefts) != decide (e ∈ rights)) es).length) :
    let cs := dupNodes (es.filter fun e => decide (e ∈ lefts) != decide (e ∈ rights)) es
    ∃ vals', addSpline lefts rights es cs s vals = .ok vals' ∧ vals'.length = cs.length ∧ area (cs.zip vals') = area (cs.zip vals) + area s := by
  intro cs
  obtain ⟨hlen, hinc⟩ := hspl
  match s, hlen with
  | l :: r :: rest, _ =>
    obtain ⟨z, hz⟩ : ∃ z, (l :: r :: rest).getLast? = some z := ⟨_, List.getLast?_eq_some_getLast (by simp)⟩
    have hzr : (r :: rest).getLast (by simp) = z := by
      rw [List.getLast?_cons_cons, List.getLast?_eq_some_getLast (by simp)] at hz
      exact Option.some.inj hz
    have hinc' := List.pairwise_cons.1 (by simpa using hinc : (l.1 :: r.1 :: rest.map Prod.fst).Pairwise (· < ·))
    have hzmem : z ∈ r :: rest := by rw [← hzr]; exact List.getLast_mem _
    have hlz : l.1 < z.1 := hinc'.1 z.1 (by
      have := List.mem_map_of_mem (f := Prod.fst) hzmem
      simpa using this)
    have hlL := hl l rfl
    have hzR := hr z hz
    obtain ⟨sS, A, a, n, B, g1, g2, g3, g4, g5⟩ := startSplit lefts rights es hs l.1 (hes l (by simp)) hlL (hafter _ hlL) (fun h => hbefore _ h)
    obtain ⟨sT, k1, X, c, m, Y, k2, k3, k4, k5⟩ := endSplit lefts rights es hs z.1 (hes z (by simp [List.mem_cons.1 hzmem])) hzR (hbefore _ hzR) (fun h => hafter _ h)
    have hcs : cs.Pairwise (· ≤ ·) := dup_sorted _ _ hs
    have g2 : cs = A ++ a :: l.1 :: n :: B := g2
    have k2 : cs = X ++ c :: z.1 :: m :: Y := k2
    have hsuf : (l.1 :: n :: B).Pairwise (· ≤ ·) := by
      rw [g2] at hcs
      exact (List.pairwise_cons.1 (List.pairwise_append.1 hcs).2.1).2
    have hgt : ∀ x ∈ n :: B, l.1 < x := by
      intro x hx
      rcases List.mem_cons.1 hx with rfl | hx
      · exact g4
      · exact lt_of_lt_of_le g4 ((List.pairwise_cons.1 (List.pairwise_cons.1 hsuf).2).1 x hx)
    have hleA : ∀ x ∈ A ++ [a], x ≤ l.1 := by
      intro x hx
      have h1 : ((A ++ [a]) ++ l.1 :: n :: B).Pairwise (· ≤ ·) := by rw [g2] at hcs; simpa using hcs
      exact (List.pairwise_append.1 h1).2.2 x hx l.1 (by simp)
    -- the end lies in the part after the start
    have hend : EndOk z.1 sT (l.1 :: n :: B) := by
      have heq : (A ++ [a]) ++ l.1 :: n :: B = X ++ c :: z.1 :: m :: Y := by rw [← k2, g2]; simp
      rcases List.append_eq_append_iff.1 heq with ⟨as, h1, h2⟩ | ⟨bs, h1, h2⟩
      · exact ⟨as, c, m, Y, h2, k3, fun x hx => k4 x (by rw [h1]; simp [hx]), k5⟩
      · cases bs with
        | nil => exact ⟨[], c, m, Y, by simpa using h2.symm, k3, by simp, k5⟩
        | cons b bs =>
          exfalso
          simp only [List.cons_append, List.cons.injEq] at h2
          obtain ⟨_, h2⟩ := h2
          cases bs with
          | nil => simp only [List.nil_append, List.cons.injEq] at h2; exact absurd hlz (by rw [h2.1]; exact lt_irrefl _)
          | cons b' bs =>
            simp only [List.cons_append, List.cons.injEq] at h2
            have := hleA b' (by rw [h1]; simp)
            rw [← h2.1] at this
            exact absurd hlz (not_lt.2 this)
    obtain ⟨vs, w1, w2⟩ := sweep_spec l.1 z.1 sS sT (n :: B) l.1 l r rest hsuf hlz (fun x hx => ne_of_gt (hgt x hx)) (le_of_lt (hinc'.1 r.1 (by simp))) (hinc'.1 r.1 (by simp))
      (by simpa using hinc'.2) (by rw [hzr]) (by
        intro p hp
        have hpm : p.1 ∈ es := hes p (by simp [List.mem_cons.1 hp])
        have hpc : p.1 ∈ cs := (dup_mem _ _ _).2 hpm
        have hlp : l.1 < p.1 := hinc'.1 p.1 (by
          have := List.mem_map_of_mem (f := Prod.fst) hp
          simpa using this)
        have : p.1 ∈ (A ++ [a]) ++ l.1 :: n :: B := by rw [g2] at hpc; simpa using hpc
        rcases List.mem_append.1 this with h | h
        · exact absurd hlp (not_lt.2 (hleA _ h))
        · exact h) hend
    rw [if_pos rfl, interp_left] at w1 w2
    have hfil : (cs.filter fun x => decide (x ≤ l.1)) = A ++ [a, l.1] := by
      have e : cs = (A ++ [a, l.1]) ++ (n :: B) := by rw [g2]; simp
      rw [e, List.filter_append, List.filter_eq_self.2, List.filter_eq_nil_iff.2, List.append_nil]
      · intro x hx; simpa using hgt x hx
      · intro x hx
        have : x ∈ (A ++ [a]) ++ [l.1] := by simpa using hx
        rcases List.mem_append.1 this with h | h
        · simpa using hleA x h
        · simp only [List.mem_singleton] at h; simp [h]
    have hdrop : cs.drop (A.length + 1) = l.1 :: n :: B := by
      have e : cs = (A ++ [a]) ++ (l.1 :: n :: B) := by rw [g2]; simp
      rw [e, List.drop_append_of_le_length (by simp)]
      simp
    refine ⟨addFrom (A.length + 1) vals (sS * l.2 :: vs), ?_, ?_, ?_⟩
    · unfold addSpline
      rw [hz]
      simp only
      rw [g1, k1]
      simp only [Res.bind_ok]
      rw [hfil]
      have : (A ++ [a, l.1]).length - 1 = A.length + 1 := by simp
      rw [this, hdrop, w1]
      rfl
    · rw [addFrom_length]; exact hv
    · have hzv : zs vals = zs cs := by
        simp only [zs, List.map_const']
        rw [hv]
      rw [addFrom_add, area_add cs vals _ hv (by rw [addFrom_length]; simp [zs]; exact hv), hzv]
      congr 1
      have e : cs = A ++ a :: l.1 :: n :: B := g2
      rw [e, area_prefix, w2]
      simp only [List.headD_cons]
      have e4 : area ((l.1, l.2) :: r :: rest) = area (l :: r :: rest) := rfl
      rw [e4]
      linear_combination (l.2 / 2) * g5

theorem foldlM_add (lefts rights es : List K) (hs : es.Pairwise (· < ·)) (hbefore : ∀ x ∈ rights, ∃ y ∈ es, y < x) (hafter : ∀ x ∈ lefts, ∃ y ∈ es, x < y) (ss : List (List (K × K))) :
    let cs := dupNodes (es.filter fun e => decide (e ∈ lefts) != decide (e ∈ rights)) es
    (∀ s ∈ ss, Spl s ∧ (∀ p ∈ s, p.1 ∈ es) ∧ (∀ l, s.head? = some l → l.1 ∈ lefts) ∧ ∀ z, s.getLast? = some z → z.1 ∈ rights) → ∀ vals, vals.length = cs.length →
    ∃ vals', ss.foldlM (fun vals s => addSpline lefts rights es cs s vals) vals = .ok vals' ∧ vals'.length = cs.length ∧ area (cs.zip vals') = area (cs.zip vals) + (ss.map area).sum := by
  intro cs
  induction ss with
  | nil => intro _ vals hv; exact ⟨vals, rfl, hv, by simp⟩
  | cons s ss ih =>
    intro h vals hv
    obtain ⟨h1, h2, h3, h4⟩ := h s (by simp)
    obtain ⟨v1, a1, a2, a3⟩ := addSpline_spec lefts rights es hs s h1 h2 h3 h4 hbefore hafter vals hv
    obtain ⟨v2, b1, b2, b3⟩ := ih (fun q hq => h q (by simp [hq])) v1 a2
    refine ⟨v2, ?_, b2, ?_⟩
    · rw [List.foldlM_cons]
      show (addSpline lefts rights es cs s vals >>= _) = _
      rw [a1]; exact b1
    · rw [b3, a3, List.map_cons, List.sum_cons]; ring

/-- Merging keeps the total area. -/
theorem merge_spec (ss : List (List (K × K))) (h : ∀ s ∈ ss, Spl s) : ∃ r, mergeLsplines ss = .ok r ∧ area r = (ss.map area).sum := by
  have hes := foldl_setInsert (fun s : List (K × K) => s.map Prod.fst) ss [] List.Pairwise.nil (fun acc s => s.foldl (fun acc p => setInsert p.1 acc) acc)
    (fun acc s y => by
      induction s generalizing acc with
      | nil => simp
      | cons p s ih =>
        rw [List.foldl_cons, ih, mem_setInsert, List.map_cons, List.mem_cons]
        tauto)
    (fun acc s hacc => by
      induction s generalizing acc with
      | nil => exact hacc
      | cons p s ih => exact ih _ (setInsert_sorted _ _ hacc))
  obtain ⟨hsort, hmem⟩ := hes
  have hin : ∀ s ∈ ss, ∀ p ∈ s, p.1 ∈ ss.foldl (fun acc s => s.foldl (fun acc p => setInsert p.1 acc) acc) [] := fun s hs p hp => (hmem _).2 (Or.inl ⟨s, hs, List.mem_map_of_mem hp⟩)
  obtain ⟨vals, h1, h2, h3⟩ := foldlM_add (ss.filterMap fun s => s.head?.map Prod.fst) (ss.filterMap fun s => s.getLast?.map Prod.fst)
    (ss.foldl (fun acc s => s.foldl (fun acc p => setInsert p.1 acc) acc) []) hsort
    (by
      intro x hx
      obtain ⟨s, hs, hx⟩ := List.mem_filterMap.1 hx
      obtain ⟨hlen, hinc⟩ := h s hs
      match s, hlen with
      | l :: r :: rest, _ =>
        obtain ⟨z, hz, rfl⟩ := Option.map_eq_some_iff.1 hx
        rw [List.getLast?_cons_cons] at hz
        have hzm := List.mem_of_getLast? hz
        refine ⟨l.1, hin _ hs l (by simp), ?_⟩
        have := (List.pairwise_cons.1 (by simpa using hinc : (l.1 :: r.1 :: rest.map Prod.fst).Pairwise (· < ·))).1
        exact this z.1 (by
          have := List.mem_map_of_mem (f := Prod.fst) hzm
          simpa using this))
    (by
      intro x hx
      obtain ⟨s, hs, hx⟩ := List.mem_filterMap.1 hx
      obtain ⟨hlen, hinc⟩ := h s hs
      match s, hlen with
      | l :: r :: rest, _ =>
        simp only [List.head?_cons, Option.map_some, Option.some.injEq] at hx
        subst hx
        refine ⟨r.1, hin _ hs r (by simp), ?_⟩
        exact (List.pairwise_cons.1 (by simpa using hinc : (l.1 :: r.1 :: rest.map Prod.fst).Pairwise (· < ·))).1 r.1 (by simp))
    ss
    (by
      intro s hs
      refine ⟨h s hs, hin s hs, ?_, ?_⟩
      · intro l hl; exact List.mem_filterMap.2 ⟨s, hs, by rw [hl]; rfl⟩
      · intro z hz; exact List.mem_filterMap.2 ⟨s, hs, by rw [hz]; rfl⟩)
    (zs (dupNodes _ _)) (by simp only [zs, List.length_map]; rfl)
  refine ⟨(dupNodes _ _).zip vals, ?_, h3.trans (by rw [area_zs, zero_add])⟩
  unfold mergeLsplines
  simp only
  simp only [zs] at h1
  rw [h1]
  rfl

end Jdftx.Tetra
