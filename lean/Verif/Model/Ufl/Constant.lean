import Verif.Model.Ufl.Elem

/-!
# Which UFL elements are constant on cells (`is_cellwise_constant` in `finat/ufl`)
-/

namespace FInAT.Ufl

open UElem

/-- `self.degree() == 0` (`finat/ufl/finiteelementbase.py` 120-122): a tuple of degrees is
never equal to a number, and neither is `None`. -/
def Deg.isZero (d : Deg) : Bool := d.beq (.int 0)

mutual
/-- `e.is_cellwise_constant()` without a component: inherited
(`finat/ufl/finiteelementbase.py` 64-69, 120-122), where only `FiniteElement` overrides
`_is_globally_constant` (`finat/ufl/finiteelement.py` 182-184); of all parts
(`mixedelement.py` 220-223, `enrichedelement.py` 114-116); `False` for nodal enriched
elements (`enrichedelement.py` 140-142); of the restricted element
(`restrictedelement.py` 51-53). `WithMapping` inherits the method, and its `degree()` is
the one stored by the wrapped element (`hdivcurl.py` 171-177). -/
def isConstant : UElem → Bool
  | .fe b _ _ _ _ _ => b.family == "Real" || b.degree.isZero
  | .mixed _ subs => areConstant subs
  | .vector _ e dim _ => dim == 0 || isConstant e
  | .tensor _ e _ _ _ count _ _ => count == 0 || isConstant e
  | .product b _ => b.degree.isZero
  | .enriched _ nodal subs => if nodal then false else areConstant subs
  | .hdiv b _ => b.degree.isZero
  | .hcurl b _ => b.degree.isZero
  | .withMapping e _ => e.degree.isZero
  | .restricted _ e _ => isConstant e
  | .broken b _ => b.degree.isZero
/-- `all(e.is_cellwise_constant() for e in elements)`.
Source: `finat/ufl/mixedelement.py` 223; `finat/ufl/enrichedelement.py` 116. -/
def areConstant : List UElem → Bool
  | [] => true
  | e :: es => isConstant e && areConstant es
end

end FInAT.Ufl
