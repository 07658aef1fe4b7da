import Verif.Model.Quadrature
import Verif.Model.Dual
import Verif.Model.FiatTab

/-!
# Construction of quadrature elements (`finat/quadrature_element.py`)

`Elem.quadrature` names the rule of a quadrature element by a number and keeps the cell and the extents of
the point indices; this file has the constructor, which checks the rule, and `make_quadrature_element`.
-/

namespace FInAT

/-- What may be passed as `rule`: a quadrature rule (an instance of `AbstractQuadratureRule`) or any other
object. Source: `finat/quadrature_element.py` 34-43. -/
inductive RuleArg (K : Type) where
  | rule (q : QRule K)
  | other

variable {K : Type} [CommRing K]

/-- `QuadratureElement(fiat_ref_cell, rule)`, where `r` is the number under which the rule is known:
`finat/quadrature_element.py:34-46`. `TypeError` unless the rule is a quadrature rule, `ValueError` unless
its points have as many coordinates as the cell. -/
def newQuadratureElement (r : Nat) (c : Cell) : RuleArg K → Except Err Elem
  | .other => .error .typeError
  | .rule q => do
    let d ← q.pointSet.dimension
    if c.spatialDim ≠ d then .error .valueError
    else .ok (.quadrature r c (q.pointSet.indices.map Index.extent))

/-- `make_quadrature_element(fiat_ref_cell, degree, scheme)`, `finat/quadrature_element.py:16-29`. The model
also returns the rule, which the element keeps as `_rule`. -/
def makeQuadratureElement (F : FiatQuad K) (scheme : String) (r : Nat) (c : Cell) (deg : Degree) :
    M (QRule K × Elem) := do
  let rule ← makeQuadrature F scheme c deg
  let e ← liftE (newQuadratureElement r c (.rule rule))
  pure (rule, e)

end FInAT
