import Verif.Model.Minimize

/-! # What a line minimiser owes its caller -/
namespace Jdftx.Min

variable {K X V : Type} [Field K] [LinearOrder K]

/-- Moving along one direction adds up: the parameter space is flat along each search direction. -/
structure Additive (o : Obj K X V) : Prop where
  zero : ∀ x d, o.step x d 0 = x
  add : ∀ x d a b, o.step (o.step x d a) d b = o.step x d (a + b)

/-- The documented obligation on failure (Minimize_linmin.h:30-31): the reported step size is the displacement made. -/
def ReportsProgress (o : Obj K X V) (x : X) (d : V) (r : LRes K X V) : Prop :=
  r.ok = false → r.x = o.step x d r.alpha

/-- On success the energy, gradient and preconditioned gradient are those of the new state, and the energy is finite and
not above the starting energy. -/
def NotAbove (o : Obj K X V) (E : K) (r : LRes K X V) : Prop :=
  r.ok = true → r.E = o.energy r.x ∧ r.g = o.grad r.x ∧ r.Kg = o.kgrad r.x ∧ ∃ e, r.E = some e ∧ e ≤ E

/-- The minimiser ended properly: the value returned is that of the state left behind, and it is finite and not above that
of the starting state. -/
def Descended (o : Obj K X V) (x0 : X) (r : X × Option K) : Prop :=
  r.2 = o.energy r.1 ∧ ∀ e0, o.energy x0 = some e0 → ∃ e, r.2 = some e ∧ e ≤ e0

end Jdftx.Min
