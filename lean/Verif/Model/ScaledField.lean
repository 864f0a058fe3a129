import Verif.Model.Outcome
import Verif.Model.BoxField
import Mathlib.Analysis.RCLike.Basic

/-!
# Model of scalar fields with a pending scale factor (jdftx/core/ScalarField.h, ScalarField.cpp, Operators.h, Operators.cpp)

Fields are reference counted: variables hold pointers, assignment shares the data, and several variables can name the same data. Real fields have
elements in ℝ, complex ones in ℂ (`RCLike`); the scale factor is always a real number. Exact arithmetic; infinities, which the elementwise reciprocal
produces on zeros, are not modelled and end the run.
-/
namespace Jdftx.SField

noncomputable section

/-- `FieldData` (ScalarField.h:51-56): scale factor and data. -/
structure Fld (D : Type) where
  scale : ℝ
  data : List D

/-- Memory and variables. A variable is null or points to an allocated field; `next` is the next free address. -/
structure St (C : Type) where
  heap : Nat → C
  next : Nat
  vars : Nat → Option Nat

/-- The field at an address is replaced. -/
def St.put {C : Type} (s : St C) (p : Nat) (c : C) : St C := { s with heap := fun q => if q = p then c else s.heap q }

/-- A new field is allocated and variable `v` made to point to it (`alloc`, `clone`, ScalarField.cpp:33-38). -/
def St.new {C : Type} (s : St C) (v : Nat) (c : C) : St C :=
  { heap := fun q => if q = s.next then c else s.heap q, next := s.next + 1, vars := fun w => if w = v then some s.next else s.vars w }

/-- Assignment of pointers. -/
def St.bind {C : Type} (s : St C) (v : Nat) (p : Option Nat) : St C := { s with vars := fun w => if w = v then p else s.vars w }

/-- Dereferencing a variable; a null pointer is undefined behaviour. -/
def St.get {C : Type} (s : St C) (v : Nat) : Res (Nat × C) :=
  match s.vars v with
  | some p => .ok (p, s.heap p)
  | none => .error .ub

variable {D : Type} [RCLike D]

/-- Operations on fields. -/
inductive Op (D : Type)
  | assign (dst src : Nat) -- dst = src: same data
  | reset (v : Nat) -- v = 0
  | alloc (v : Nat) (n : Nat) -- nullToZero of a null pointer, Operators.h:251
  | clone (dst src : Nat) -- dst = clone(src)
  | scale (v : Nat) (c : ℝ) -- v *= c
  | mulCopy (dst src : Nat) (c : ℝ) -- dst = src * c
  | mul (v w : Nat) -- v *= w
  | axpy (c : ℝ) (x y : Nat) -- y += c * x
  | addScalar (v : Nat) (c : ℝ) -- v += c
  | map (v : Nat) (F : D → D) -- elementwise function: exp, log, sqrt, pow
  | inv (v : Nat) -- elementwise reciprocal
  | conj (v : Nat) -- elementwise conjugate
  | lin (dst src : Nat) (T : List D → List D) -- transforms and other linear operations giving a new field
  | setGzero (v : Nat) (g : D)
  | setGzeroReal (v : Nat) (g : ℝ)
  | zero (v : Nat)
  | read (v : Nat) -- v->data()

/-- `absorbScale` (ScalarField.h:179-185). -/
def absorb (f : Fld D) : Fld D := if f.scale ≠ 1 then ⟨1, f.data.map fun x => (f.scale : D) * x⟩ else f

/-- `eblas_daxpy`, `eblas_zaxpy` with unit strides. -/
def axpyLoop (a : ℝ) (x y : List D) : List D := List.zipWith (fun x y => y + (a : D) * x) x y

/-- `eblas_dmul`, `eblas_zmul`: `Y *= X`. -/
def mulLoop (x y : List D) : List D := List.zipWith (fun x y => y * x) x y

/-- Replace the first element; data is never empty in the code. -/
def setFirst (f : D → D) : List D → List D
  | [] => []
  | x :: l => f x :: l

/-- Overwrite the real part. -/
def putRe (g : ℝ) (x : D) : D := (g : D) + (RCLike.im x : D) * RCLike.I

/-- The operations on scaled fields. -/
def step (s : St (Fld D)) : Op D → Res (St (Fld D))
  | .assign dst src => .ok (s.bind dst (s.vars src))
  | .reset v => .ok (s.bind v none)
  | .alloc v n => match s.vars v with
    | some _ => .ok s
    | none => .ok (s.new v ⟨1, List.replicate n 0⟩)
  | .clone dst src => match s.vars src with -- Operators.h:136
    | none => .ok (s.bind dst none)
    | some p => .ok (s.new dst (s.heap p))
  | .scale v c => match s.vars v with -- Operators.h:140
    | none => .ok s
    | some p => .ok (s.put p { s.heap p with scale := (s.heap p).scale * c })
  | .mulCopy dst src c => do -- Operators.h:141-142
    let f ← s.get src
    return s.new dst { f.2 with scale := f.2.scale * c }
  | .mul v w => do -- Operators.h:154-158, Operators.cpp:716-720
    let f ← s.get v
    let g ← s.get w
    return s.put f.1 ⟨f.2.scale * g.2.scale, mulLoop g.2.data f.2.data⟩
  | .axpy c x y => match s.vars x with -- Operators.h:183-192, Operators.cpp:744-754
    | none => .ok s
    | some p => match s.vars y with
      | none => .ok (s.new y { s.heap p with scale := (s.heap p).scale * c })
      | some q =>
        if (s.heap q).scale = 0 then .ok (s.new y { s.heap p with scale := (s.heap p).scale * c })
        else .ok (s.put q { s.heap q with data := axpyLoop (c * (s.heap p).scale / (s.heap q).scale) (s.heap p).data (s.heap q).data })
  | .addScalar v c => do -- Operators.cpp:755-759
    let f ← s.get v
    return s.put f.1 ⟨(absorb f.2).scale, (absorb f.2).data.map fun x => x + (c : D)⟩
  | .map v F => do -- Operators.cpp:629-676, 697-711
    let f ← s.get v
    return s.put f.1 ⟨1, f.2.data.map fun x => F ((f.2.scale : D) * x)⟩
  | .inv v => do -- Operators.cpp:680-695
    let f ← s.get v
    if ∃ x ∈ f.2.data, f.2.scale = 0 ∨ x = 0 then .error .ub -- infinite
    else return s.put f.1 ⟨1, f.2.data.map fun x => ((1 / f.2.scale : ℝ) : D) / x⟩
  | .conj v => do -- Operators.h:147-151
    let f ← s.get v
    return s.put f.1 { f.2 with data := f.2.data.map (starRingEnd D) }
  | .lin dst src T => do -- Operators.cpp:125-183: `out->scale = in->scale`
    let f ← s.get src
    return s.new dst ⟨f.2.scale, T f.2.data⟩
  | .setGzero v g => do -- ScalarField.cpp:131-142
    let f ← s.get v
    let h := if f.2.scale = 0 then absorb f.2 else f.2
    return s.put f.1 { h with data := setFirst (fun _ => g * ((1 / h.scale : ℝ) : D)) h.data }
  | .setGzeroReal v g => do -- ScalarField.cpp:73-83
    let f ← s.get v
    let h := if f.2.scale = 0 then absorb f.2 else f.2
    return s.put f.1 { h with data := setFirst (putRe (g / h.scale)) h.data }
  | .zero v => do -- ScalarField.h:84
    let f ← s.get v
    return s.put f.1 { f.2 with data := f.2.data.map fun _ => 0 }
  | .read v => do -- ScalarField.h:61-63
    let f ← s.get v
    return s.put f.1 (absorb f.2)

/-- A program. -/
def run (s : St (Fld D)) : List (Op D) → Res (St (Fld D))
  | [] => .ok s
  | o :: os => match step s o with
    | .ok s' => run s' os
    | .error e => .error e

/-! ### Values computed from fields -/

/-- Operators.cpp:774-776 `dot(ScalarField, ScalarField)`. -/
def dotReal (f g : Fld ℝ) : ℝ := f.scale * g.scale * (List.zipWith (· * ·) f.data g.data).sum

/-- Operators.h:219-221 `dot` of complex fields: both scale factors are absorbed first. -/
def dotComplex (f g : Fld D) : D := (List.zipWith (fun x y => starRingEnd D x * y) (absorb f).data (absorb g).data).sum

/-- Operators.cpp:789-791 `nrm2(ScalarField)`. -/
def nrm2Real (f : Fld ℝ) : ℝ := |f.scale| * Real.sqrt (f.data.map fun x => x ^ 2).sum

/-- Operators.h:222-224 `nrm2` of complex fields. -/
def nrm2Complex (f : Fld D) : ℝ := Real.sqrt ((absorb f).data.map fun x => RCLike.normSq x).sum

/-- Operators.cpp:804-807 `sum(ScalarField)`: inner product with a constant array holding the scale factor. -/
def sumReal (f : Fld ℝ) : ℝ := (f.data.map fun x => x * f.scale).sum

/-- Operators.h:225-228 `sum` of complex fields. -/
def sumComplex (f : Fld D) : D := ((absorb f).data.map fun x => starRingEnd D (1 : D) * x).sum

/-- ScalarField.cpp:120-130 and 62-72 `getGzero`. -/
def getGzero (f : Fld D) : D := f.data.headD 0 * (f.scale : D)

/-- Operators.cpp:826-834, 838-846 `integral` in reciprocal space. -/
def integralG (detR : ℝ) (f : Fld D) : D := f.data.headD 0 * (detR : D) * (f.scale : D)

/-- Operators.cpp:778-787 with the scale factors. -/
def dotHalfScaled (S : Box.Size) (a b : ℝ) (X Y : Box.Arr) : ℝ := a * b * Box.dotHalf S X Y

/-- Operators.cpp:793-802 with the scale factor. -/
def nrm2HalfScaled (S : Box.Size) (a : ℝ) (X : Box.Arr) : ℝ := |a| * Box.nrm2Half S X

/-- Operators.cpp:809-819 with the scale factor. -/
def sumHalfScaled (S : Box.Size) (a : ℝ) (X : Box.Arr) : ℝ := a * Box.sumHalf S X

end

end Jdftx.SField
