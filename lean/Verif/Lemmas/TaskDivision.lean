import Verif.Model.TaskDivision
import Verif.Spec.Partition

namespace Jdftx.TaskDiv
open Jdftx.Spec

theorem interval_append {a b c : Nat} (h1 : a ≤ b) (h2 : b ≤ c) :
    interval a b ++ interval b c = interval a c := by
  unfold interval
  have e : c - a = (b - a) + (c - b) := by omega
  rw [e, List.range'_append_1.symm]
  have : a + (b - a) = b := by omega
  rw [this]

theorem interval_zero (n : Nat) : interval 0 n = List.range n := by
  unfold interval; rw [List.range_eq_range']; simp

theorem mem_interval {a b i : Nat} : i ∈ interval a b ↔ a ≤ i ∧ i < b := by
  unfold interval; rw [List.mem_range'_1]; omega

/-- Consecutive values of a monotone function starting at 0 cover the indices below its last value. -/
theorem cover_of_mono (f : Nat → Nat) (h0 : f 0 = 0) (hm : ∀ i, f i ≤ f (i+1)) (P : Nat) :
    ((List.range P).map fun i => (f i, f (i+1))).flatMap (fun r => interval r.1 r.2)
      = List.range (f P) := by
  induction P with
  | zero => simp [h0]
  | succ P ih =>
    rw [List.range_succ, List.map_append, List.flatMap_append, ih]
    simp only [List.map_cons, List.map_nil, List.flatMap_cons, List.flatMap_nil, List.append_nil]
    rw [← interval_zero, ← interval_zero]
    exact interval_append (Nat.zero_le _) (hm P)

theorem div_mono (N P i : Nat) : (i * N) / P ≤ ((i+1) * N) / P :=
  Nat.div_le_div_right (Nat.mul_le_mul_right _ (Nat.le_succ i))

/-- length of chunk `i` is `N/P` or `N/P+1`. -/
theorem chunk_len (N P i : Nat) (hP : 0 < P) :
    N / P ≤ ((i+1) * N) / P - (i * N) / P ∧ ((i+1) * N) / P - (i * N) / P ≤ N / P + 1 := by
  have e : (i+1) * N = i * N + N := by rw [Nat.add_mul, Nat.one_mul]
  rw [e]
  generalize i * N = a
  have h1 : a / P + N / P ≤ (a + N) / P := by
    rw [Nat.le_div_iff_mul_le hP, Nat.add_mul]
    exact Nat.add_le_add (Nat.div_mul_le_self a P) (Nat.div_mul_le_self N P)
  have h2 : (a + N) / P ≤ a / P + N / P + 1 := by
    have ha := Nat.div_add_mod a P
    have hN := Nat.div_add_mod N P
    have hma := Nat.mod_lt a hP
    have hmN := Nat.mod_lt N hP
    apply Nat.lt_succ_iff.mp
    rw [Nat.div_lt_iff_lt_mul hP]
    have : (a / P + N / P + 1).succ * P = P * (a/P) + P * (N/P) + P + P := by
      rw [Nat.succ_mul, Nat.succ_mul, Nat.add_mul, Nat.mul_comm P, Nat.mul_comm P]
    rw [this]
    generalize P * (a/P) = x at *
    generalize P * (N/P) = y at *
    generalize a % P = u at *
    generalize N % P = v at *
    omega
  generalize (a + N) / P = z at *
  generalize a / P = x at *
  generalize N / P = y at *
  omega

theorem stopArr_getElem? (N P i : Nat) (h : i < P) :
    (mkStopArr N P)[i]? = some ((N * (i+1)) / P) := by
  simp [mkStopArr, h]

theorem init_eq (N P i : Nat) (h : i < P) :
    init N P i = some ⟨(i * N) / P, ((i+1) * N) / P, mkStopArr N P⟩ := by
  have hs : stopOf (mkStopArr N P) i = some (((i+1) * N) / P) := by
    unfold stopOf; rw [stopArr_getElem? N P i h, Nat.mul_comm]
  have hb : startOf (mkStopArr N P) i = some ((i * N) / P) := by
    unfold startOf
    rcases i with _ | i
    · simp
    · simp only [ne_eq, Nat.add_eq_zero_iff, Nat.one_ne_zero, and_false, not_false_eq_true, if_true,
        Nat.add_sub_cancel]
      rw [stopArr_getElem? N P i (by omega), Nat.mul_comm]
  unfold init
  simp only [hb, hs]; rfl

/-- The bisection returns `k` when everything before `k` is `≤ q` and everything from `k` is `> q`. -/
theorem upperBoundAux_spec (arr : List Nat) (q first len k : Nat)
    (hlo : first ≤ k) (hhi : k ≤ first + len) (hlen : first + len ≤ arr.length)
    (h1 : ∀ i, i < k → i < arr.length → arr.getD i 0 ≤ q)
    (h2 : ∀ i, k ≤ i → i < arr.length → q < arr.getD i 0) :
    upperBoundAux arr q first len = k := by
  fun_induction upperBoundAux arr q first len with
  | case1 first len h half hq ih =>
    apply ih hlo _ (by omega)
    rcases Nat.lt_or_ge (first + half) k with hk | hk
    · have := h1 _ hk (by omega); omega
    · exact hk
  | case2 first len h half hq ih =>
    apply ih _ (by omega) (by omega)
    rcases Nat.lt_or_ge (first + half) k with hk | hk
    · omega
    · exact absurd (h2 _ hk (by omega)) hq
  | case3 first len h => omega

end Jdftx.TaskDiv
