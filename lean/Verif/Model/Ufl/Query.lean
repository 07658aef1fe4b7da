import Verif.Model.Ufl.Component
import Verif.Model.Ufl.Constant

/-!
# Questions about one component of a UFL element

`degree(component)` and `is_cellwise_constant(component)`, and the method `extract_component` they call. A
component index is a tuple of integers; `none` is the call without a component.
-/

namespace FInAT.Ufl

open UElem

/-- A call of a method that needs `needed` positional arguments besides `self` with `given` of them:
`TypeError` for missing arguments. External (Python); used at `finat/ufl/mixedelement.py` 180. -/
def callWith {α : Type} (needed given : Nat) (body : Except Err α) : Except Err α :=
  if given < needed then .error .typeError else body

/-- `self._check_component(i)` in `TensorElement.extract_subelement_component`
(`finat/ufl/mixedelement.py` 498-500), where the method is `_check_component(self, domain, i)`
(`finat/ufl/finiteelementbase.py` 144-151). What the method does with both arguments is not modelled, since it
is never reached. -/
def tensorCheckComponent : Except Err Unit := callWith 2 1 (.ok ())

/-- `TensorElement.extract_subelement_component(i)` (`finat/ufl/mixedelement.py` 493-509), `i` being a tuple:
the symmetry is applied to the whole index, its first part names the sub-element. -/
def tensorExtract (shape : List Nat) (symmetry : Symmetry) (number : Dict (List Nat) Nat) (i : List Nat) :
    Except Err (Nat × List Nat) := do
  let _ ← tensorCheckComponent
  let i := (symmetry.get? i).getD i
  match number.get? (i.take shape.length) with
  | none => .error .valueError
  | some k => .ok (k, i.drop shape.length)

/-- `self.extract_subelement_component(i)` with the index alone (`finat/ufl/mixedelement.py` 180), by the class
of the element: `MixedElement` and `VectorElement` have `extract_subelement_component(self, domain, i)`
(`mixedelement.py` 139), `TensorElement` has `extract_subelement_component(self, i)`. -/
def extractSubelementComponent : UElem → List Nat → Except Err (Nat × List Nat)
  | .tensor _ _ shape symmetry number _ _ _, i => callWith 1 1 (tensorExtract shape symmetry number i)
  | _, i => callWith 2 1 (.ok (0, i))

/-- `MixedElement.extract_component(i)` (`finat/ufl/mixedelement.py` 175-181), up to the call on the
sub-element: the sub-element and what is left of the index. -/
def extractComponent (e : UElem) (i : List Nat) : Except Err (Nat × List Nat) := do
  let (k, c) ← extractSubelementComponent e i
  .ok (k, c)

/-- `e.degree(component)`: `finat/ufl/finiteelementbase.py` 107-109 ignores the component;
`MixedElement.degree` and the classes derived from it (`finat/ufl/mixedelement.py` 228-234) extract the
sub-element first. What follows the extraction is the degree of the sub-element. -/
def degreeAt (subDegree : Nat → List Nat → Except Err Deg) (e : UElem) : Option (List Nat) → Except Err Deg
  | none => .ok e.degree
  | some i => match e with
    | .mixed .. | .vector .. | .tensor .. => do
      let (k, c) ← extractComponent e i
      subDegree k c
    | e => .ok e.degree

/-- `e.is_cellwise_constant(component)`: `finat/ufl/finiteelementbase.py` 120-122 ignores the component;
`MixedElement` and the classes derived from it (`finat/ufl/mixedelement.py` 220-226) extract the sub-element
first; enriched and restricted elements have no such parameter
(`finat/ufl/enrichedelement.py` 114, 140, `restrictedelement.py` 51). -/
def constantAt (subConstant : Nat → List Nat → Except Err Bool) (e : UElem) :
    Option (List Nat) → Except Err Bool
  | none => .ok (isConstant e)
  | some i => match e with
    | .mixed .. | .vector .. | .tensor .. => do
      let (k, c) ← extractComponent e i
      subConstant k c
    | .enriched .. | .restricted .. => .error .typeError
    | e => .ok (isConstant e)

end FInAT.Ufl
