import Verif.Model.ScaledField

/-!
# Plain fields

The same operations on fields without scale factors: what a user expects of them.
-/
namespace Jdftx.SField

noncomputable section
variable {D : Type} [RCLike D]

/-- What a field with a pending factor stands for. -/
def Fld.value (f : Fld D) : List D := f.data.map fun x => (f.scale : D) * x

/-- The operations on plain fields. -/
def plain (s : St (List D)) : Op D → Res (St (List D))
  | .assign dst src => .ok (s.bind dst (s.vars src))
  | .reset v => .ok (s.bind v none)
  | .alloc v n => match s.vars v with
    | some _ => .ok s
    | none => .ok (s.new v (List.replicate n 0))
  | .clone dst src => match s.vars src with
    | none => .ok (s.bind dst none)
    | some p => .ok (s.new dst (s.heap p))
  | .scale v c => match s.vars v with
    | none => .ok s
    | some p => .ok (s.put p ((s.heap p).map fun x => (c : D) * x))
  | .mulCopy dst src c => do
    let f ← s.get src
    return s.new dst (f.2.map fun x => (c : D) * x)
  | .mul v w => do
    let f ← s.get v
    let g ← s.get w
    return s.put f.1 (List.zipWith (· * ·) f.2 g.2)
  | .axpy c x y => match s.vars x with
    | none => .ok s
    | some p => match s.vars y with
      | none => .ok (s.new y ((s.heap p).map fun x => (c : D) * x))
      | some q => .ok (s.put q (List.zipWith (fun x y => y + (c : D) * x) (s.heap p) (s.heap q)))
  | .addScalar v c => do
    let f ← s.get v
    return s.put f.1 (f.2.map fun x => x + (c : D))
  | .map v F => do
    let f ← s.get v
    return s.put f.1 (f.2.map F)
  | .inv v => do
    let f ← s.get v
    if (0 : D) ∈ f.2 then .error .ub
    else return s.put f.1 (f.2.map fun x => x⁻¹)
  | .conj v => do
    let f ← s.get v
    return s.put f.1 (f.2.map (starRingEnd D))
  | .lin dst src T => do
    let f ← s.get src
    return s.new dst (T f.2)
  | .setGzero v g => do
    let f ← s.get v
    return s.put f.1 (setFirst (fun _ => g) f.2)
  | .setGzeroReal v g => do
    let f ← s.get v
    return s.put f.1 (setFirst (fun x => (g : D) + (RCLike.im x : D) * RCLike.I) f.2)
  | .zero v => do
    let f ← s.get v
    return s.put f.1 (f.2.map fun _ => 0)
  | .read v => do
    let _ ← s.get v
    return s

/-- A program on plain fields. -/
def runPlain (s : St (List D)) : List (Op D) → Res (St (List D))
  | [] => .ok s
  | o :: os => match plain s o with
    | .ok s' => runPlain s' os
    | .error e => .error e

/-- What variable `v` holds. -/
def St.den {C : Type} (val : C → List D) (s : St C) (v : Nat) : Option (List D) := (s.vars v).map fun p => val (s.heap p)

/-- The same contents of every variable, and the same variables sharing data. -/
def Same (s : St (Fld D)) (t : St (List D)) : Prop :=
  (∀ v, s.den Fld.value v = t.den id v) ∧ ∀ v w, (s.vars v).isSome → (s.vars v = s.vars w ↔ t.vars v = t.vars w)

/-- Variables point to allocated fields. -/
def WF {C : Type} (s : St C) : Prop := ∀ v p, s.vars v = some p → p < s.next

/-- Reachable pairs of states. -/
def Rel (s : St (Fld D)) (t : St (List D)) : Prop := WF s ∧ WF t ∧ Same s t

/-- What an operation gives: both fail alike, or both succeed and the states still agree. -/
def Agree (r : Res (St (Fld D))) (r' : Res (St (List D))) : Prop :=
  (∃ s t, r = .ok s ∧ r' = .ok t ∧ Rel s t) ∨ ∃ e, r = .error e ∧ r' = .error e

/-- Programs start with null pointers. -/
def start {C : Type} (c : C) : St C := ⟨fun _ => c, 0, fun _ => none⟩

/-- Operations the programs may use: linear operations are homogeneous, fields added have the same number of elements, and a field with factor zero
that other variables share is not added to. -/
def Allowed (s : St (Fld D)) : Op D → Prop
  | .lin _ _ T => ∀ (c : ℝ) l, T (l.map fun x => (c : D) * x) = (T l).map fun x => (c : D) * x
  | .axpy _ x y => ∀ p q, s.vars x = some p → s.vars y = some q →
      (s.heap p).data.length = (s.heap q).data.length ∧ ((s.heap q).scale = 0 → ∀ w, w ≠ y → s.vars w ≠ some q)
  | _ => True

/-- Every operation of the run is allowed when it is reached. -/
def AllAllowed (s : St (Fld D)) : List (Op D) → Prop
  | [] => True
  | o :: os => Allowed s o ∧ ∀ s', step s o = .ok s' → AllAllowed s' os

end

end Jdftx.SField
