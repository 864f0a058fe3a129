import Verif.Model.Minimize

/-! # The textbook inverse Hessian of L-BFGS -/
namespace Jdftx.Min

variable {K X V : Type} [Field K] [LinearOrder K] [AddCommGroup V] [Module K V]

/-- `dot` is an inner product. -/
structure Inner (dot : V → V → K) : Prop where
  comm : ∀ u v, dot u v = dot v u
  add : ∀ u v w, dot u (v + w) = dot u v + dot u w
  smul : ∀ (c : K) u v, dot u (c • v) = c * dot u v
  pos : ∀ v, v ≠ 0 → 0 < dot v v

/-- `P` is an orthogonal projection: the linear map onto the allowed directions. -/
structure Projection (dot : V → V → K) (P : V → V) : Prop where
  add : ∀ u v, P (u + v) = P u + P v
  smul : ∀ (c : K) v, P (c • v) = c • P v
  idem : ∀ v, P (P v) = P v
  adj : ∀ u v, dot (P u) v = dot u (P v)

/-- Nocedal, Math. Comput. 35, 773 (1980), the reference given in the code: the inverse Hessian estimate from pairs
(change of position `s`, change of gradient `y`), most recent first, starting from `gamma` times the identity,
`H' = (1 - s yᵀ/(s·y)) H (1 - y sᵀ/(s·y)) + s sᵀ/(s·y)`. -/
def invHessian (dot : V → V → K) (gamma : K) : List (V × V) → V → V
  | [], v => gamma • v
  | (s, y) :: older, v =>
    let w := invHessian dot gamma older (v - (dot s v / dot s y) • y)
    w - (dot y w / dot s y) • s + (dot s v / dot s y) • s

end Jdftx.Min
