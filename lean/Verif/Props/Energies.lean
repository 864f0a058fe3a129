import Verif.Lemmas.Energies
/-!
# C114: energy components, their total, and the printout

`after ops` (model) are the components after operations; `value`, `sum`, `Stripped`, `Consistent` are the
specification (`Spec/Energies.lean`). Operations are listed latest first.
-/
namespace Jdftx.Ener

open Jdftx.Input (Str)

variable {α : Type} [AddCommGroup α] [DecidableEq α]

/-- Each component has the value last set plus what was added since, whatever happened to other components; names that
differ in case are the same component. -/
theorem C114_value (ops : List (Op α)) (k : Str) : read (after ops) k = value ops k := read_after ops k

/-- The total follows every change of a component. -/
theorem C114_total (ops : List (Op α)) : total (after ops) = sum ops := total_after ops

/-- The numbers printed add up to the total, also when components that are zero are left out. -/
theorem C114_printed_sum (ops : List (Op α)) (nonzeroOnly : Bool) :
    ((lines nonzeroOnly (after ops)).map (·.2)).sum = sum ops := by
  rw [← total_eq, ← total_after]
  have := (linesFrom_spec nonzeroOnly (after ops) [] (by simp [Sorted])).2.1
  rw [show total ([] : Comps α) = 0 from rfl, zero_add] at this
  exact this

/-- Each line is the sum of the components that have its name up to case and numbers at the end. -/
theorem C114_printed_value (m : Comps α) (nonzeroOnly : Bool) (e : Str × α) (he : e ∈ lines nonzeroOnly m) :
    (∃ c ∈ m, ∃ r, Stripped c.1 r ∧ Same r e.1) ∧
    e.2 = ((m.filter fun c => decide (Same (reducedName c.1) e.1)).map (·.2)).sum := by
  have hs := linesFrom_spec nonzeroOnly m [] (by simp [Sorted])
  constructor
  · rcases mem_names nonzeroOnly m [] e he with ⟨e', h, _⟩ | ⟨c, h1, h2, _⟩
    · simp at h
    · exact ⟨c, h1, reducedName c.1, stripped_reduced c.1, (low_iff _ _).mp h2.symm⟩
  · have h1 := hs.2.2 e.1
    have h2 : read (linesFrom nonzeroOnly [] m) e.1 = e.2 := by
      have : ∀ l : Comps α, Sorted l → e ∈ l → read l e.1 = e.2 := by
        intro l hl hm
        induction l with
        | nil => simp at hm
        | cons p rest ih =>
          have hp := List.pairwise_cons.mp hl
          rcases List.mem_cons.mp hm with rfl | hm
          · simp [read]
          · rw [read, if_neg (ne_of_lt (hp.1 e hm))]
            exact ih hp.2 hm
      exact this _ hs.1 he
    rw [h2] at h1
    simpa [read, low_iff] using h1

/-- Every component has its line, unless it is zero and zeros are left out. -/
theorem C114_printed_all (m : Comps α) (nonzeroOnly : Bool) (c : Str × α) (hc : c ∈ m) (h0 : nonzeroOnly = true → c.2 ≠ 0) :
    ∃ e ∈ lines nonzeroOnly m, Same e.1 (reducedName c.1) := by
  obtain ⟨e, h1, h2⟩ := linesFrom_has nonzeroOnly m [] c hc h0
  exact ⟨e, h1, (low_iff _ _).mp h2⟩

/-- The part of a name that counts for the printout. -/
theorem C114_name (k : Str) : Stripped k (reducedName k) := stripped_reduced k

/-- No name is printed twice, and lines are in alphabetical order. -/
theorem C114_printed_once (m : Comps α) (nonzeroOnly : Bool) :
    (lines nonzeroOnly m).Pairwise fun a b => low a.1 < low b.1 ∧ ¬ Same a.1 b.1 := by
  have h := (linesFrom_spec nonzeroOnly m [] (by simp [Sorted])).1
  refine List.Pairwise.imp ?_ h
  intro a b hab
  exact ⟨hab, fun hs => absurd ((low_iff _ _).mpr hs) (ne_of_lt hab)⟩

/-- In the printout of the energies, the components above `Etot` add up to it, and `F` and `G` follow from the numbers
printed above them. -/
theorem C114_printout (ops : List (Op α)) (TS muN : α) :
    ∃ top : List (Str × α), (top.map (·.2)).sum = sum ops ∧
      (Energies.mk (after ops) TS muN 0).print = top ++ [("Etot".toList, sum ops)]
        ++ (if TS ≠ 0 then [("TS".toList, TS), ("F".toList, sum ops - TS)] else [])
        ++ (if muN ≠ 0 then [("muN".toList, muN), ("G".toList, sum ops - TS - muN)] else []) := by
  refine ⟨lines true (after ops), C114_printed_sum ops true, ?_⟩
  simp [Energies.print, Energies.F, Energies.G, total_after]

/-- The free energy that is minimized is the last number printed. -/
theorem C114_last (md : Mode) (e : Energies α) (h : Consistent md e) :
    e.print.getLast?.map (·.2) = some (relevantFreeEnergy md e) := by
  unfold Energies.print relevantFreeEnergy
  by_cases h1 : md.fixedH = true
  · simp [h1, h.band h1]
  · have hb := h.noBand (by simpa using h1)
    by_cases h2 : md.constFillings = true
    · have hc := h.const h2
      simp [h1, h2, hb, hc.1, hc.2]
    · by_cases h3 : md.muNaN = true
      · have hm := h.noMu h3
        by_cases ht : e.TS = 0
        · simp [h1, h2, h3, hb, hm, ht, Energies.F]
        · simp [h1, h2, h3, hb, hm, ht]
      · by_cases hm : e.muN = 0
        · by_cases ht : e.TS = 0
          · simp [h1, h2, h3, hb, hm, ht, Energies.F, Energies.G]
          · simp [h1, h2, h3, hb, hm, ht, Energies.G]
        · simp only [h1, h2, h3, hb, hm, ne_eq, not_true_eq_false, not_false_eq_true, if_false, if_true, Bool.false_eq_true]
          rw [List.getLast?_append]
          simp

/-- Only the number, not the name, can be relied on: the minimized free energy may be named `F` and, without entropy, the
printout has no line `F`. -/
theorem C114_name_absent : ∃ (md : Mode) (e : Energies ℤ), Consistent md e ∧ relevantFreeEnergyName md = "F".toList ∧
    ∀ l ∈ e.print, l.1 ≠ relevantFreeEnergyName md := by
  refine ⟨⟨false, false, true⟩, ⟨[("KE".toList, 5)], 0, 0, 0⟩, ⟨by simp, by simp, by simp, by simp⟩, rfl, ?_⟩
  decide +kernel

/-! ## Examples -/

/-- Components set and added to in several cases; `Exc1` and `Exc2` share a line. -/
def exOps : List (Op ℤ) := [.add "exc2".toList 4, .set "KE".toList 7, .set "Exc1".toList 1, .set "ke".toList 3, .set "Z".toList 0]

example : read (after exOps) "Ke".toList = 7 ∧ total (after exOps) = 12 := by decide +kernel

example : lines true (after exOps) = [("Exc".toList, 5), ("ke".toList, 7)] := by decide +kernel

example : lines false (after exOps) = [("Exc".toList, 5), ("ke".toList, 7), ("Z".toList, 0)] := by decide +kernel

example : Consistent ⟨false, false, false⟩ (Energies.mk (after exOps) 2 (-3) 0) :=
  ⟨by simp, by simp, by simp, by simp⟩

example : (Energies.mk (after exOps) 2 (-3) 0).print.map (·.2) = [5, 7, 12, 2, 10, -3, 13] := by decide +kernel

end Jdftx.Ener
