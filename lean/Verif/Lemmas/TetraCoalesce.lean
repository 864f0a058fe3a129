import Verif.Lemmas.TetraDos
import Mathlib.Data.List.Chain

/-! # Lemmas for the tetrahedron density of states: joining the pieces of a band -/
set_option linter.unusedSectionVars false

namespace Jdftx.Tetra
variable {K : Type} [Field K] [LinearOrder K] [IsStrictOrderedRing K]

theorem mem_setInsert (x y : K) (l : List K) : y ∈ setInsert x l ↔ y = x ∨ y ∈ l := by
  induction l with
  | nil => simp [setInsert]
  | cons z l ih =>
    unfold setInsert
    split
    · simp
    · split
      · simp only [List.mem_cons, ih]; tauto
      · rename_i h1 h2
        have : x = z := le_antisymm (not_lt.1 h2) (not_lt.1 h1)
        subst this
        simp

theorem setInsert_sorted (x : K) (l : List K) (h : l.Pairwise (· < ·)) : (setInsert x l).Pairwise (· < ·) := by
  induction l with
  | nil => simp [setInsert]
  | cons z l ih =>
    have hz := List.pairwise_cons.1 h
    unfold setInsert
    split
    · rename_i h1
      refine List.pairwise_cons.2 ⟨?_, h⟩
      intro a ha
      rcases List.mem_cons.1 ha with rfl | ha
      · exact h1
      · exact lt_trans h1 (hz.1 a ha)
    · split
      · rename_i h1 h2
        refine List.pairwise_cons.2 ⟨?_, ih hz.2⟩
        intro a ha
        rcases (mem_setInsert x a l).1 ha with rfl | ha
        · exact h2
        · exact hz.1 a ha
      · exact h

theorem foldl_setInsert {α : Type} (f : α → List K) (l : List α) (s : List K) (hs : s.Pairwise (· < ·)) (step : List K → α → List K)
    (hstep : ∀ s a, (∀ y, y ∈ step s a ↔ y ∈ f a ∨ y ∈ s)) (hsort : ∀ s a, s.Pairwise (· < ·) → (step s a).Pairwise (· < ·)) :
    (l.foldl step s).Pairwise (· < ·) ∧ ∀ y, y ∈ l.foldl step s ↔ (∃ a ∈ l, y ∈ f a) ∨ y ∈ s := by
  induction l generalizing s with
  | nil => exact ⟨hs, by simp⟩
  | cons a l ih =>
    obtain ⟨h1, h2⟩ := ih (step s a) (hsort s a hs)
    refine ⟨h1, fun y => ?_⟩
    rw [List.foldl_cons, h2, hstep]
    simp only [List.mem_cons, exists_eq_or_imp]
    generalize (∃ a ∈ l, y ∈ f a) = P
    tauto

theorem nodes_spec (c : Cspline K) : (nodes c).Pairwise (· < ·) ∧ ∀ y, y ∈ nodes c ↔ (∃ d ∈ c.deltas, y = d.1) ∨ ∃ p ∈ c.ivs, y = p.1.1 ∨ y = p.1.2 := by
  have h1 := foldl_setInsert (fun p : (K × K) × Bez K => [p.1.1, p.1.2]) c.ivs [] List.Pairwise.nil (fun s i => setInsert i.1.2 (setInsert i.1.1 s))
    (fun s a y => by simp only [mem_setInsert, List.mem_cons, List.not_mem_nil, or_false]; tauto) (fun s a hs => setInsert_sorted _ _ (setInsert_sorted _ _ hs))
  have h2 := foldl_setInsert (fun d : K × K => [d.1]) c.deltas _ h1.1 (fun s d => setInsert d.1 s)
    (fun s a y => by simp only [mem_setInsert, List.mem_cons, List.not_mem_nil, or_false]) (fun s a hs => setInsert_sorted _ _ hs)
  refine ⟨h2.1, fun y => ?_⟩
  unfold nodes
  rw [h2.2, h1.2]
  simp

/-- Keys in order. -/
def MapSorted (m : List ((K × K) × Bez K)) : Prop := (m.map Prod.fst).Pairwise fun a b => ivLt a b = true

theorem ivLt_trans (a b c : K × K) (h1 : ivLt a b = true) (h2 : ivLt b c = true) : ivLt a c = true := by
  rw [ivLt_iff] at *
  rcases h1 with h1 | ⟨h1, h1'⟩ <;> rcases h2 with h2 | ⟨h2, h2'⟩
  · exact Or.inl (lt_trans h1 h2)
  · exact Or.inl (h2 ▸ h1)
  · exact Or.inl (h1 ▸ h2)
  · exact Or.inr ⟨h1.trans h2, lt_trans h1' h2'⟩

theorem mapAdd_keys (k : K × K) (d : Bez K) (m : List ((K × K) × Bez K)) (x : K × K) : x ∈ (mapAdd k d m).map Prod.fst ↔ x = k ∨ x ∈ m.map Prod.fst := by
  induction m with
  | nil => simp [mapAdd]
  | cons p m ih =>
    unfold mapAdd
    split
    · simp only [List.map_cons, List.mem_cons]
    · rename_i h1
      split
      · simp only [List.map_cons, List.mem_cons, ih]; tauto
      · rename_i h2
        have := ivLt_total _ _ h1 h2
        simp only [List.map_cons, List.mem_cons, this]; tauto

theorem mapAdd_sorted (k : K × K) (d : Bez K) (m : List ((K × K) × Bez K)) (h : MapSorted m) : MapSorted (mapAdd k d m) := by
  induction m with
  | nil => simp [mapAdd, MapSorted]
  | cons p m ih =>
    have hp := List.pairwise_cons.1 h
    unfold mapAdd
    split
    · rename_i h1
      refine List.pairwise_cons.2 ⟨?_, h⟩
      intro a ha
      rcases List.mem_cons.1 ha with rfl | ha
      · exact h1
      · exact ivLt_trans _ _ _ h1 (hp.1 a ha)
    · split
      · rename_i h1 h2
        refine List.pairwise_cons.2 ⟨?_, ih hp.2⟩
        intro a ha
        rcases (mapAdd_keys k d m a).1 ha with rfl | ha
        · exact h2
        · exact hp.1 a ha
      · exact h

/-- Consecutive pairs. -/
def pairs (l : List K) : List (K × K) := l.zip l.tail

theorem pairs_cons (x y : K) (l : List K) : pairs (x :: y :: l) = (x, y) :: pairs (y :: l) := rfl

theorem pairs_mem (l : List K) (k : K × K) (h : k ∈ pairs l) : k.1 ∈ l ∧ k.2 ∈ l := by
  have h1 := (List.of_mem_zip (show (k.1, k.2) ∈ l.zip l.tail from h))
  exact ⟨h1.1, List.mem_of_mem_tail h1.2⟩

theorem pairs_lt (l : List K) (h : l.Pairwise (· < ·)) (k : K × K) (hk : k ∈ pairs l) : k.1 < k.2 ∧ ∀ x ∈ l, x ≤ k.1 ∨ k.2 ≤ x := by
  induction l with
  | nil => simp [pairs] at hk
  | cons a l ih =>
    cases l with
    | nil => simp [pairs] at hk
    | cons b l =>
      have ha := List.pairwise_cons.1 h
      rw [pairs_cons] at hk
      rcases List.mem_cons.1 hk with rfl | hk
      · refine ⟨ha.1 b (by simp), fun x hx => ?_⟩
        rcases List.mem_cons.1 hx with rfl | hx
        · exact Or.inl le_rfl
        · right
          rcases List.mem_cons.1 hx with rfl | hx
          · exact le_rfl
          · exact le_of_lt ((List.pairwise_cons.1 ha.2).1 x hx)
      · have hk' := hk
        obtain ⟨h1, h2⟩ := ih ha.2 hk
        refine ⟨h1, fun x hx => ?_⟩
        rcases List.mem_cons.1 hx with hx | hx
        · rw [hx]; exact Or.inl (le_of_lt (ha.1 _ (pairs_mem _ _ hk').1))
        · exact h2 x hx

theorem pairs_sorted (l : List K) (h : l.Pairwise (· < ·)) : (pairs l).Pairwise fun a b => ivLt a b = true := by
  induction l with
  | nil => simp [pairs]
  | cons a l ih =>
    cases l with
    | nil => simp [pairs]
    | cons b l =>
      have ha := List.pairwise_cons.1 h
      rw [pairs_cons]
      refine List.pairwise_cons.2 ⟨fun k hk => ?_, ih ha.2⟩
      rw [ivLt_iff]
      exact Or.inl (ha.1 _ (pairs_mem _ _ hk).1)

theorem pairs_suffix (pre : List K) (lo : K) (rest : List K) (h : (pre ++ lo :: rest).Pairwise (· < ·)) (k : K × K) :
    k ∈ pairs (lo :: rest) ↔ k ∈ pairs (pre ++ lo :: rest) ∧ lo ≤ k.1 := by
  induction pre with
  | nil =>
    refine ⟨fun hk => ⟨hk, ?_⟩, fun hk => hk.1⟩
    have := (pairs_mem _ _ hk).1
    rcases List.mem_cons.1 this with h' | h'
    · exact le_of_eq h'.symm
    · exact le_of_lt ((List.pairwise_cons.1 h).1 _ h')
  | cons a pre ih =>
    have ha := List.pairwise_cons.1 h
    rw [ih ha.2]
    have key : ∀ (x : K) (l : List K), pre ++ lo :: rest = x :: l → pairs (a :: (pre ++ lo :: rest)) = (a, x) :: pairs (pre ++ lo :: rest) := by
      intro x l he; rw [he]; rfl
    obtain ⟨x, l, he⟩ : ∃ x l, pre ++ lo :: rest = x :: l := by cases pre <;> exact ⟨_, _, rfl⟩
    rw [List.cons_append, key x l he]
    simp only [List.mem_cons]
    constructor
    · rintro ⟨h1, h2⟩; exact ⟨Or.inr h1, h2⟩
    · rintro ⟨h1 | h1, h2⟩
      · subst h1
        exact absurd (ha.1 lo (by simp)) (not_lt.2 h2)
      · exact ⟨h1, h2⟩

theorem prim_zero (b : Bez K) : b.prim 0 = 0 := by simp [Bez.prim]

theorem prim_one (b : Bez K) : b.prim 1 = (b.b0 + b.b1 + b.b2 + b.b3) / 4 := by simp only [Bez.prim]; ring

/-- A sub-interval of a cubic, rebuilt from values and slopes at its ends, has the right integral. -/
theorem split_int (lo hi e e' : K) (b : Bez K) (h : hi - lo ≠ 0) :
    let t := (e - lo) * (1 / (hi - lo))
    let t' := (e' - lo) * (1 / (hi - lo))
    pieceInt (e, e') ⟨b.value t, b.value t + (1 / 3) * (e' - e) * (b.deriv t * (1 / (hi - lo))), b.value t' - (1 / 3) * (e' - e) * (b.deriv t' * (1 / (hi - lo))), b.value t'⟩ =
      (hi - lo) * (b.prim t' - b.prim t) := by
  simp only [pieceInt, Bez.value, Bez.deriv, Bez.prim]
  field_simp
  ring

theorem splitFrom_spec (lo hi : K) (b : Bez K) (h : lo < hi) (rest : List K) : ∀ (e : K) (m : List ((K × K) × Bez K)), (e :: rest).Pairwise (· < ·) → hi ∈ e :: rest → MapSorted m →
    ∃ m', splitFrom lo hi b e rest m = .ok m' ∧ MapSorted m' ∧ ivsInt m' = ivsInt m + (hi - lo) * (b.prim 1 - b.prim ((e - lo) * (1 / (hi - lo)))) ∧
      ∀ k, k ∈ m'.map Prod.fst ↔ (k ∈ pairs (e :: rest) ∧ k.2 ≤ hi) ∨ k ∈ m.map Prod.fst := by
  have hne : hi - lo ≠ 0 := ne_of_gt (sub_pos.2 h)
  induction rest with
  | nil =>
    intro e m _ hmem hm
    have : hi = e := by simpa using hmem
    subst this
    refine ⟨m, by simp [splitFrom], hm, ?_, by simp [pairs]⟩
    rw [mul_one_div_cancel hne]; ring
  | cons e' rest ih =>
    intro e m hs hmem hm
    have hs' := List.pairwise_cons.1 hs
    by_cases he : e = hi
    · subst he
      refine ⟨m, by simp [splitFrom], hm, ?_, ?_⟩
      · rw [mul_one_div_cancel hne]; ring
      · intro k
        constructor
        · exact Or.inr
        · rintro (⟨h1, h2⟩ | h1)
          · exfalso
            have h3 := (pairs_mem _ _ h1).1
            have h4 := (pairs_lt _ hs _ h1).1
            rcases List.mem_cons.1 h3 with h5 | h5
            · rw [h5] at h4; exact absurd h4 (not_lt.2 h2)
            · exact absurd (lt_trans (hs'.1 _ h5) h4) (not_lt.2 h2)
          · exact h1
    · have hmem' : hi ∈ e' :: rest := by
        rcases List.mem_cons.1 hmem with h1 | h1
        · exact absurd h1.symm he
        · exact h1
      unfold splitFrom
      rw [if_neg he]
      obtain ⟨m', h1, h2, h3, h4⟩ := ih e' _ hs'.2 hmem' (mapAdd_sorted (e, e') _ m hm)
      refine ⟨m', h1, h2, ?_, ?_⟩
      · rw [h3, mapAdd_int, split_int lo hi e e' b hne]; ring
      · intro k
        rw [h4, mapAdd_keys, pairs_cons, List.mem_cons]
        have hle : e' ≤ hi := by
          rcases List.mem_cons.1 hmem' with h5 | h5
          · exact le_of_eq h5.symm
          · exact le_of_lt ((List.pairwise_cons.1 hs'.2).1 _ h5)
        constructor
        · rintro (⟨h5, h6⟩ | h5 | h5)
          · exact Or.inl ⟨Or.inr h5, h6⟩
          · exact Or.inl ⟨Or.inl h5, by rw [h5]; exact hle⟩
          · exact Or.inr h5
        · rintro (⟨h5 | h5, h6⟩ | h5)
          · exact Or.inr (Or.inl h5)
          · exact Or.inl ⟨h5, h6⟩
          · exact Or.inr (Or.inr h5)

theorem dropWhile_spec (ns : List K) (lo : K) (h : lo ∈ ns) : ∃ pre rest, ns = pre ++ lo :: rest ∧ ns.dropWhile (fun x => decide (x ≠ lo)) = lo :: rest := by
  induction ns with
  | nil => simp at h
  | cons a ns ih =>
    by_cases he : a = lo
    · subst he
      exact ⟨[], ns, rfl, by simp⟩
    · have : lo ∈ ns := by
        rcases List.mem_cons.1 h with h1 | h1
        · exact absurd h1.symm he
        · exact h1
      obtain ⟨pre, rest, h1, h2⟩ := ih this
      exact ⟨a :: pre, rest, by rw [h1]; rfl, by rw [List.dropWhile_cons_of_pos (by simpa using he)]; exact h2⟩

theorem splitPiece_spec (ns : List K) (hs : ns.Pairwise (· < ·)) (p : (K × K) × Bez K) (h : p.1.1 < p.1.2) (h1 : p.1.1 ∈ ns) (h2 : p.1.2 ∈ ns) (m : List ((K × K) × Bez K)) (hm : MapSorted m) :
    ∃ m', splitPiece ns p m = .ok m' ∧ MapSorted m' ∧ ivsInt m' = ivsInt m + pieceInt p.1 p.2 ∧
      ∀ k, k ∈ m'.map Prod.fst ↔ (k ∈ pairs ns ∧ p.1.1 ≤ k.1 ∧ k.2 ≤ p.1.2) ∨ k ∈ m.map Prod.fst := by
  obtain ⟨pre, rest, e1, e2⟩ := dropWhile_spec ns p.1.1 h1
  have hs' : (p.1.1 :: rest).Pairwise (· < ·) := by rw [e1] at hs; exact (List.pairwise_append.1 hs).2.1
  have hmem : p.1.2 ∈ p.1.1 :: rest := by
    rw [e1] at h2 hs
    rcases List.mem_append.1 h2 with h3 | h3
    · exact absurd ((List.pairwise_append.1 hs).2.2 _ h3 _ (by simp)) (not_lt.2 (le_of_lt h))
    · exact h3
  obtain ⟨m', g1, g2, g3, g4⟩ := splitFrom_spec p.1.1 p.1.2 p.2 h rest p.1.1 m hs' hmem hm
  refine ⟨m', ?_, g2, ?_, ?_⟩
  · unfold splitPiece; rw [e2]; exact g1
  · rw [g3, sub_self, zero_mul, prim_zero, prim_one]; simp only [pieceInt, sub_zero]
  · intro k
    rw [g4, pairs_suffix pre _ _ (e1 ▸ hs), ← e1]
    tauto

theorem foldlM_split (ns : List K) (hs : ns.Pairwise (· < ·)) (l : List ((K × K) × Bez K)) : (∀ p ∈ l, p.1.1 < p.1.2 ∧ p.1.1 ∈ ns ∧ p.1.2 ∈ ns) → ∀ m, MapSorted m →
    ∃ m', l.foldlM (fun m p => splitPiece ns p m) m = .ok m' ∧ MapSorted m' ∧ ivsInt m' = ivsInt m + ivsInt l ∧
      ∀ k, k ∈ m'.map Prod.fst ↔ (k ∈ pairs ns ∧ ∃ p ∈ l, p.1.1 ≤ k.1 ∧ k.2 ≤ p.1.2) ∨ k ∈ m.map Prod.fst := by
  induction l with
  | nil => intro _ m hm; exact ⟨m, rfl, hm, by simp [ivsInt], by simp⟩
  | cons p l ih =>
    intro hp m hm
    obtain ⟨h1, h2, h3⟩ := hp p (by simp)
    obtain ⟨m1, a1, a2, a3, a4⟩ := splitPiece_spec ns hs p h1 h2 h3 m hm
    obtain ⟨m2, b1, b2, b3, b4⟩ := ih (fun q hq => hp q (by simp [hq])) m1 a2
    refine ⟨m2, ?_, b2, ?_, ?_⟩
    · rw [List.foldlM_cons, a1]; exact b1
    · rw [b3, a3]; simp only [ivsInt, List.map_cons, List.sum_cons]; ring
    · intro k
      rw [b4, a4]
      simp only [List.mem_cons, exists_eq_or_imp]
      generalize (∃ p ∈ l, p.1.1 ≤ k.1 ∧ k.2 ≤ p.1.2) = P
      tauto

/-- Value of the delta function at `z`. -/
def deltaVal (ds : List (K × K)) (z : K) : K := (deltaAt ds z).getD 0

/-- The pieces join: each begins where the one before ended, with the same value, and has positive length. -/
def Joined : List ((K × K) × Bez K) → Prop
  | [] => True
  | [p] => p.1.1 < p.1.2
  | p :: q :: m => p.1.1 < p.1.2 ∧ q.1.1 = p.1.2 ∧ q.2.b0 = p.2.b3 ∧ Joined (q :: m)

theorem fixNodes_spec (ds : List (K × K)) (rest : List ((K × K) × Bez K)) : ∀ (cur : (K × K) × Bez K) (x y : K) (zs : List K), (x :: y :: zs).Pairwise (· < ·) →
    (cur :: rest).map Prod.fst = pairs (x :: y :: zs) →
    ∃ r, fixNodes ds cur rest = .ok r ∧ r.map Prod.fst = pairs (x :: y :: zs) ∧ Joined r ∧ (∃ q r', r = q :: r' ∧ q.2.b0 = cur.2.b0) ∧
      ivsInt r = ivsInt (cur :: rest) + ((y :: zs).dropLast.map (deltaVal ds)).sum := by
  induction rest with
  | nil =>
    intro cur x y zs hs hk
    cases zs with
    | cons z zs => simp [pairs_cons] at hk
    | nil =>
      refine ⟨[cur], rfl, hk, ?_, ⟨cur, [], rfl, rfl⟩, by simp⟩
      have : cur.1 = (x, y) := by simpa [pairs] using hk
      simp only [Joined, this]
      exact (List.pairwise_cons.1 hs).1 y (by simp)
  | cons nxt rest ih =>
    intro cur x y zs hs hk
    cases zs with
    | nil => simp [pairs] at hk
    | cons z zs =>
      rw [pairs_cons] at hk
      simp only [List.map_cons, List.cons.injEq] at hk
      obtain ⟨hc, hk'⟩ := hk
      have hs' := List.pairwise_cons.1 hs
      have hn : nxt.1 = (y, z) := by rw [pairs_cons] at hk'; exact (List.cons.inj hk').1
      have hxy : x < y := hs'.1 y (by simp)
      have hyz : y < z := (List.pairwise_cons.1 hs'.2).1 z (by simp)
      unfold fixNodes
      simp only
      rw [if_neg (by rw [hn, hc]; simp)]
      obtain ⟨r, h1, h2, h3, ⟨q, r', h4, h5⟩, h6⟩ := ih (nxt.1, { nxt.2 with b0 := ((cur.1.2 - cur.1.1) * cur.2.b3 + (nxt.1.2 - nxt.1.1) * nxt.2.b0 + deltaTerm ds cur.1.2) / (cur.1.2 - cur.1.1 + (nxt.1.2 - nxt.1.1)) })
        y z zs hs'.2 (by simpa using hk')
      refine ⟨(cur.1, { cur.2 with b3 := ((cur.1.2 - cur.1.1) * cur.2.b3 + (nxt.1.2 - nxt.1.1) * nxt.2.b0 + deltaTerm ds cur.1.2) / (cur.1.2 - cur.1.1 + (nxt.1.2 - nxt.1.1)) }) :: r, ?_, ?_, ?_, ?_, ?_⟩
      · rw [h1]; rfl
      · rw [List.map_cons, h2, hc]; rfl
      · subst h4
        have hq : q.1 = (y, z) := by
          rw [pairs_cons] at h2
          exact (List.cons.inj (by simpa using h2)).1
        simp only [Joined]
        refine ⟨by rw [hc]; exact hxy, by rw [hq, hc], h5, h3⟩
      · exact ⟨_, _, rfl, rfl⟩
      · have hpos : y - x + (z - y) ≠ 0 := by
          have : 0 < z - x := sub_pos.2 (lt_trans hxy hyz)
          have e : y - x + (z - y) = z - x := by ring
          rw [e]; exact ne_of_gt this
        have hdl : (y :: z :: zs).dropLast = y :: (z :: zs).dropLast := rfl
        have hdel : deltaTerm ds y = 4 * deltaVal ds y := by
          unfold deltaVal deltaTerm
          cases deltaAt ds y <;> simp
        rw [hdl]
        simp only [ivsInt, List.map_cons, List.sum_cons] at h6 ⊢
        rw [h6]
        simp only [pieceInt, hc, hn, hdel]
        field_simp
        ring

theorem deltaBottom_spec (ds : List (K × K)) (m : List ((K × K) × Bez K)) (x : K) (p : (K × K) × Bez K) (hx : p.1.1 = x) (hj : Joined (p :: m)) (hds : (ds.map Prod.fst).Pairwise (· < ·)) (hlow : ∀ d ∈ ds, x ≤ d.1) :
    (deltaBottom ds (p :: m)).map Prod.fst = (p :: m).map Prod.fst ∧ Joined (deltaBottom ds (p :: m)) ∧ ivsInt (deltaBottom ds (p :: m)) = ivsInt (p :: m) + deltaVal ds x := by
  have hp : p.1.2 - p.1.1 ≠ 0 := by
    cases m with
    | nil => exact ne_of_gt (sub_pos.2 hj)
    | cons q m => exact ne_of_gt (sub_pos.2 hj.1)
  cases ds with
  | nil => exact ⟨rfl, hj, by simp [deltaBottom, deltaVal, deltaAt]⟩
  | cons d ds =>
    unfold deltaBottom
    simp only
    split
    · rename_i he
      refine ⟨rfl, ?_, ?_⟩
      · cases m with
        | nil => exact hj
        | cons q m => exact hj
      · have : deltaVal (d :: ds) x = d.2 := by simp [deltaVal, deltaAt, he, hx]
        rw [this]
        simp only [ivsInt, List.map_cons, List.sum_cons, pieceInt]
        field_simp
        ring
    · rename_i he
      refine ⟨rfl, hj, ?_⟩
      have : deltaVal (d :: ds) x = 0 := by
        have hlt : x < d.1 := lt_of_le_of_ne (hlow d (by simp)) fun h => he (by rw [hx, h])
        have hnone : deltaAt (d :: ds) x = none := by
          unfold deltaAt
          rw [List.find?_eq_none.2]
          · rfl
          · intro a ha
            rw [decide_eq_true_eq]
            rcases List.mem_cons.1 ha with rfl | ha
            · exact ne_of_gt hlt
            · have := (List.pairwise_cons.1 hds).1 a.1 (List.mem_map_of_mem ha)
              exact ne_of_gt (lt_trans hlt this)
        simp [deltaVal, hnone]
      rw [this, add_zero]

theorem deltaVal_last (ds : List (K × K)) (y : K) (hds : (ds.map Prod.fst).Pairwise (· < ·)) (hhigh : ∀ d ∈ ds, d.1 ≤ y) :
    deltaVal ds y = match ds.getLast? with | none => 0 | some d => if d.1 = y then d.2 else 0 := by
  induction ds with
  | nil => rfl
  | cons d ds ih =>
    have hp := List.pairwise_cons.1 hds
    cases ds with
    | nil => simp only [deltaVal, deltaAt, List.find?_cons, List.find?_nil, List.getLast?_singleton]; by_cases h : d.1 = y <;> simp [h]
    | cons d' ds =>
      have hlt : d.1 ≠ y := by
        have h1 := hp.1 d'.1 (by simp)
        exact ne_of_lt (lt_of_lt_of_le h1 (hhigh d' (by simp)))
      have : deltaVal (d :: d' :: ds) y = deltaVal (d' :: ds) y := by
        simp only [deltaVal, deltaAt]
        rw [List.find?_cons_of_neg (by simpa using hlt)]
      rw [this, ih hp.2 (fun a ha => hhigh a (by simp [ha])), List.getLast?_cons_cons]

theorem deltaTop_spec (ds : List (K × K)) (y : K) (hds : (ds.map Prod.fst).Pairwise (· < ·)) (hhigh : ∀ d ∈ ds, d.1 ≤ y) (m : List ((K × K) × Bez K)) :
    m ≠ [] → (m.getLast?.map fun p => p.1.2) = some y → Joined m →
    (deltaTop ds m).map Prod.fst = m.map Prod.fst ∧ Joined (deltaTop ds m) ∧ ivsInt (deltaTop ds m) = ivsInt m + deltaVal ds y ∧
      ((deltaTop ds m).head?.map fun p => p.2.b0) = m.head?.map fun p => p.2.b0 := by
  induction m with
  | nil => intro h; exact absurd rfl h
  | cons p m ih =>
    intro _ hl hj
    cases m with
    | nil =>
      have hp : p.1.2 - p.1.1 ≠ 0 := ne_of_gt (sub_pos.2 hj)
      have hy : p.1.2 = y := by simpa using hl
      have hv := deltaVal_last ds y hds hhigh
      cases hg : ds.getLast? with
      | none =>
        rw [hg] at hv
        have : deltaTop ds [p] = [p] := by simp [deltaTop, hg]
        rw [this, hv]
        exact ⟨rfl, hj, by simp, rfl⟩
      | some d =>
        rw [hg] at hv
        by_cases he : d.1 = y
        · have : deltaTop ds [p] = [(p.1, { p.2 with b3 := p.2.b3 + d.2 * (4 / (p.1.2 - p.1.1)) })] := by simp [deltaTop, hg, he, hy]
          rw [this, hv]
          refine ⟨rfl, hj, ?_, rfl⟩
          simp only [he, if_true, ivsInt, List.map_cons, List.map_nil, List.sum_cons, List.sum_nil, pieceInt]
          field_simp
          ring
        · have : deltaTop ds [p] = [p] := by simp [deltaTop, hg, he, hy]
          rw [this, hv]
          exact ⟨rfl, hj, by simp [he], rfl⟩
    | cons q m =>
      obtain ⟨h1, h2, h3, h4⟩ := ih (by simp) (by simpa using hl) hj.2.2.2
      have : deltaTop ds (p :: q :: m) = p :: deltaTop ds (q :: m) := rfl
      rw [this]
      refine ⟨by rw [List.map_cons, h1]; rfl, ?_, ?_, rfl⟩
      · cases hd : deltaTop ds (q :: m) with
        | nil => rw [hd] at h1; simp at h1
        | cons r rs =>
          rw [hd] at h1 h2 h4
          simp only [List.map_cons, List.cons.injEq] at h1
          simp only [List.head?_cons, Option.map_some, Option.some.injEq] at h4
          exact ⟨hj.1, by rw [h1.1]; exact hj.2.1, by rw [h4]; exact hj.2.2.1, h2⟩
      · simp only [ivsInt, List.map_cons, List.sum_cons] at h3 ⊢
        rw [h3]; ring

theorem deltaVal_sum (ds : List (K × K)) (ns : List K) (hds : (ds.map Prod.fst).Pairwise (· < ·)) (hns : ns.Nodup) (hsub : ∀ d ∈ ds, d.1 ∈ ns) :
    (ns.map (deltaVal ds)).sum = deltaInt ds := by
  induction ds with
  | nil =>
    have : deltaVal ([] : List (K × K)) = fun _ => 0 := rfl
    simp [this, deltaInt]
  | cons d ds ih =>
    have hp := List.pairwise_cons.1 hds
    have hz : deltaVal ds d.1 = 0 := by
      have : deltaAt ds d.1 = none := by
        unfold deltaAt
        rw [List.find?_eq_none.2]
        · rfl
        · intro a ha
          rw [decide_eq_true_eq]
          exact ne_of_gt (hp.1 a.1 (List.mem_map_of_mem ha))
      simp [deltaVal, this]
    have hstep : ∀ z, deltaVal (d :: ds) z = (if z = d.1 then d.2 else 0) + deltaVal ds z := by
      intro z
      by_cases he : d.1 = z
      · subst he
        rw [hz]
        simp [deltaVal, deltaAt]
      · rw [if_neg (fun h => he h.symm), zero_add]
        simp only [deltaVal, deltaAt]
        rw [List.find?_cons_of_neg (by simpa using he)]
    rw [show ns.map (deltaVal (d :: ds)) = ns.map fun z => (if z = d.1 then d.2 else 0) + deltaVal ds z from List.map_congr_left fun z _ => hstep z]
    rw [List.sum_map_add, ih hp.2 fun a ha => hsub a (by simp [ha])]
    have hone : (ns.map fun z => if z = d.1 then d.2 else 0).sum = d.2 := by
      have hmem := hsub d (by simp)
      clear ih hz hstep hsub
      induction ns with
      | nil => simp at hmem
      | cons a ns ih =>
        have hn := List.nodup_cons.1 hns
        rw [List.map_cons, List.sum_cons]
        by_cases he : a = d.1
        · rw [if_pos he]
          have : (ns.map fun z => if z = d.1 then d.2 else 0) = ns.map fun _ => (0 : K) := by
            apply List.map_congr_left
            intro z hz
            rw [if_neg]
            rintro rfl
            exact hn.1 (he ▸ hz)
          rw [this]; simp
        · rw [if_neg he, zero_add, ih hn.2]
          rcases List.mem_cons.1 hmem with h | h
          · exact absurd h.symm he
          · exact h
    rw [hone]
    simp [deltaInt]

theorem coalesce_spec (c : Cspline K) (hp : ∀ p ∈ c.ivs, p.1.1 < p.1.2) (hd : (c.deltas.map Prod.fst).Pairwise (· < ·))
    (hcov : ∀ k ∈ pairs (nodes c), ∃ p ∈ c.ivs, p.1.1 ≤ k.1 ∧ k.2 ≤ p.1.2) (hlen : 2 ≤ (nodes c).length) :
    ∃ r, coalesce c = .ok r ∧ r ≠ [] ∧ Joined r ∧ ivsInt r = ivsInt c.ivs + deltaInt c.deltas := by
  obtain ⟨hs, hmem⟩ := nodes_spec c
  obtain ⟨m, h1, h2, h3, h4⟩ := foldlM_split (nodes c) hs c.ivs
    (fun p hpm => ⟨hp p hpm, (hmem _).2 (Or.inr ⟨p, hpm, Or.inl rfl⟩), (hmem _).2 (Or.inr ⟨p, hpm, Or.inr rfl⟩)⟩) [] (by simp [MapSorted])
  have hkeys : m.map Prod.fst = pairs (nodes c) := by
    refine List.Perm.eq_of_pairwise (le := fun a b => ivLt a b = true) ?_ h2 (pairs_sorted _ hs) ?_
    · intro a b _ _ ha hb
      have := ivLt_trans _ _ _ ha hb
      rw [ivLt_iff] at this
      rcases this with h | h
      · exact absurd h (lt_irrefl _)
      · exact absurd h.2 (lt_irrefl _)
    · have hirr : ∀ a : K × K, ¬ ivLt a a = true := by
        intro a h
        rw [ivLt_iff] at h
        rcases h with h | h
        · exact absurd h (lt_irrefl _)
        · exact absurd h.2 (lt_irrefl _)
      have nd : ∀ l : List (K × K), (l.Pairwise fun a b => ivLt a b = true) → l.Nodup := fun l hl => List.Pairwise.imp (S := (· ≠ ·)) (fun {a b} hab he => hirr b (by rw [he] at hab; exact hab)) hl
      rw [List.perm_ext_iff_of_nodup (nd _ h2) (nd _ (pairs_sorted _ hs))]
      intro k
      rw [h4]
      constructor
      · rintro (h | h)
        · exact h.1
        · simp at h
      · exact fun h => Or.inl ⟨h, hcov k h⟩
  -- name the first two nodes
  obtain ⟨x, y, zs, hns⟩ : ∃ x y zs, nodes c = x :: y :: zs := by
    match hn : nodes c with
    | [] => rw [hn] at hlen; simp at hlen
    | [_] => rw [hn] at hlen; simp at hlen
    | x :: y :: zs => exact ⟨x, y, zs, rfl⟩
  rw [hns] at hkeys hs
  cases m with
  | nil => simp [pairs_cons] at hkeys
  | cons p m =>
    obtain ⟨r, g1, g2, g3, ⟨q, r', g4, _⟩, g5⟩ := fixNodes_spec c.deltas m p x y zs hs hkeys
    subst g4
    have hqx : q.1.1 = x := by
      rw [pairs_cons] at g2
      have := (List.cons.inj (by simpa using g2 : q.1 :: r'.map Prod.fst = (x, y) :: pairs (y :: zs))).1
      rw [this]
    have hdn : ∀ d ∈ c.deltas, d.1 ∈ x :: y :: zs := fun d hd => by rw [← hns]; exact (hmem _).2 (Or.inl ⟨d, hd, rfl⟩)
    have hlow : ∀ d ∈ c.deltas, x ≤ d.1 := by
      intro d hd
      rcases List.mem_cons.1 (hdn d hd) with h | h
      · exact le_of_eq h.symm
      · exact le_of_lt ((List.pairwise_cons.1 hs).1 _ h)
    obtain ⟨b1, b2, b3⟩ := deltaBottom_spec c.deltas r' x q hqx g3 hd hlow
    -- the last node
    have hlastp : ∀ (x y : K) (zs : List K), ((pairs (x :: y :: zs)).getLast?.map Prod.snd) = some ((y :: zs).getLast (by simp)) := by
      intro x y zs
      induction zs generalizing x y with
      | nil => rfl
      | cons z zs ih =>
        rw [pairs_cons]
        have := ih y z
        rw [List.getLast_cons (by simp), ← this]
        rw [pairs_cons, List.getLast?_cons_cons]
    obtain ⟨t1, t2, t3, _⟩ := deltaTop_spec c.deltas ((y :: zs).getLast (by simp)) hd (by
        intro d hd'
        have hle : ∀ z ∈ y :: zs, z ≤ (y :: zs).getLast (by simp) := by
          intro z hz
          have hs2 := (List.pairwise_cons.1 hs).2
          rw [← List.dropLast_append_getLast (l := y :: zs) (by simp)] at hs2 hz
          rcases List.mem_append.1 hz with h | h
          · exact le_of_lt ((List.pairwise_append.1 hs2).2.2 z h _ (by simp))
          · simp only [List.mem_singleton] at h; exact le_of_eq h
        rcases List.mem_cons.1 (hdn d hd') with h | h
        · rw [h]
          exact le_trans (le_of_lt ((List.pairwise_cons.1 hs).1 y (by simp))) (hle y (by simp))
        · exact hle _ h)
      (deltaBottom c.deltas (q :: r')) (fun h => by rw [h] at b1; simp at b1) (by
        have : ((deltaBottom c.deltas (q :: r')).map Prod.fst).getLast?.map Prod.snd = some ((y :: zs).getLast (by simp)) := by rw [b1, g2, hlastp]
        rw [List.getLast?_map, Option.map_map] at this
        exact this) b2
    refine ⟨deltaTop c.deltas (deltaBottom c.deltas (q :: r')), ?_, ?_, t2, ?_⟩
    · unfold coalesce
      rw [h1, Res.bind_ok]
      simp only
      rw [g1]; rfl
    · intro h
      rw [h] at t1
      rw [b1] at t1
      simp at t1
    · rw [t3, b3, g5]
      have e1 : ivsInt (p :: m) = ivsInt c.ivs := by rw [h3]; simp [ivsInt]
      have e2 : deltaInt c.deltas = ((x :: y :: zs).map (deltaVal c.deltas)).sum := by
        rw [deltaVal_sum c.deltas (x :: y :: zs) hd (hs.imp fun {a b} hab => ne_of_lt hab) hdn]
      have e3 : ((x :: y :: zs).map (deltaVal c.deltas)).sum = deltaVal c.deltas x + ((((y :: zs).dropLast.map (deltaVal c.deltas)).sum) + deltaVal c.deltas ((y :: zs).getLast (by simp))) := by
        rw [List.map_cons, List.sum_cons]
        congr 1
        conv_lhs => rw [← List.dropLast_append_getLast (l := y :: zs) (by simp)]
        rw [List.map_append, List.sum_append]; simp
      rw [e1, e2, e3]; ring

theorem convert_spec (m : List ((K × K) × Bez K)) : ∀ p, Joined (p :: m) →
    area (convertLspline (p :: m)) = ivsInt (p :: m) ∧ ((convertLspline (p :: m)).map Prod.fst).IsChain (· < ·) := by
  induction m with
  | nil =>
    intro p hj
    have hj : p.1.1 < p.1.2 := hj
    simp only [convertLspline, List.flatMap_cons, List.flatMap_nil, List.append_nil, convertOne, area, ivsInt, List.map_cons, List.map_nil, List.sum_cons, List.sum_nil, pieceInt]
    refine ⟨by ring, ?_⟩
    simp only [List.isChain_cons_cons, List.isChain_singleton, and_true]
    exact ⟨by linarith, by linarith, by linarith⟩
  | cons q m ih =>
    intro p hj
    obtain ⟨h1, h2, h3, h4⟩ := hj
    obtain ⟨g1, g2⟩ := ih q h4
    have hcq : (p.1.2, p.2.b3) = (q.1.1, q.2.b0) := by rw [h2, h3]
    have e : convertLspline (p :: q :: m) = (p.1.1, p.2.b0) :: ((1 / 3) * (2 * p.1.1 + p.1.2), (13 / 60) * p.2.b0 + (60 / 100) * p.2.b1 + (15 / 100) * p.2.b2 + (1 / 30) * p.2.b3) ::
        ((1 / 3) * (p.1.1 + 2 * p.1.2), (13 / 60) * p.2.b3 + (60 / 100) * p.2.b2 + (15 / 100) * p.2.b1 + (1 / 30) * p.2.b0) :: convertLspline (q :: m) := by
      show _ :: _ :: _ :: (p.1.2, p.2.b3) :: _ = _
      rw [hcq]; rfl
    rw [e]
    have hq : ∃ l, convertLspline (q :: m) = (p.1.2, p.2.b3) :: l := ⟨_, by rw [hcq]; rfl⟩
    obtain ⟨l, hl⟩ := hq
    rw [hl] at g1 g2 ⊢
    constructor
    · simp only [area]
      rw [g1]
      simp only [ivsInt, List.map_cons, List.sum_cons, pieceInt]
      ring
    · simp only [List.map_cons, List.isChain_cons_cons] at g2 ⊢
      exact ⟨by linarith, by linarith, by linarith, g2⟩

end Jdftx.Tetra
