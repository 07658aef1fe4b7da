import Verif.Model.Ufl.Component

/-!
# The operators `*`, `+` and `[]` of UFL elements
-/

namespace FInAT.Ufl

open UElem

/-- What can stand on the right of an operator: an element, or anything else.
Source: `finat/ufl/finiteelementbase.py` 211, 218. -/
inductive Operand where
  | element (e : UElem)
  | other

/-- `a + b` (`finat/ufl/finiteelementbase.py` 209-214). -/
def add (a : UElem) : Operand → Except Err UElem
  | .other => .error .valueError
  | .element b => mkEnriched false [a, b]

/-- `a * b` (`finat/ufl/finiteelementbase.py` 216-221). -/
def mul (a : UElem) : Operand → Except Err UElem
  | .other => .error .valueError
  | .element b => mkMixed [a, b]

/-- `e[index]` (`finat/ufl/finiteelementbase.py` 223-230). Anything that is not a string (`none`) is not among
the names of domains. -/
def getItem (e : UElem) (index : Option String) : Except Err UElem :=
  match index with
  | none => .error .keyError
  | some i => if restrictionDomains.contains i then mkRestricted e i else .error .keyError

/-- `for x in e` (`finat/ufl/finiteelementbase.py` 232-234). -/
def iterElement (_ : UElem) : Except Err (List UElem) := .error .typeError

/-- `e.sub_elements` (`finat/ufl/finiteelementbase.py` 204-207, `mixedelement.py` 133-136,
`tensorproductelement.py` 102-105, `restrictedelement.py` 98-101). `WithMapping` passes unknown attributes on to
the wrapped element (`hdivcurl.py` 171-177) but inherits this one. -/
def subElementsOf : UElem → List UElem
  | .mixed _ subs => subs
  | .vector _ e dim _ => List.replicate dim e
  | .tensor _ e _ _ _ count _ _ => List.replicate count e
  | .product _ subs => subs
  | .restricted _ e _ => subElementsOf e
  | _ => []

/-- `e.num_sub_elements` (`finat/ufl/finiteelementbase.py` 199-202, `mixedelement.py` 128-131,
`tensorproductelement.py` 97-100, `restrictedelement.py` 93-96). -/
def numSubElements : UElem → Nat
  | .mixed _ subs => subs.length
  | .vector _ _ dim _ => dim
  | .tensor _ _ _ _ _ count _ _ => count
  | .product _ subs => subs.length
  | .restricted _ e _ => numSubElements e
  | _ => 0

end FInAT.Ufl
