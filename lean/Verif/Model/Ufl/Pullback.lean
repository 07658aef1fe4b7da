import Verif.Model.Ufl.Elem

/-!
# Pullbacks of UFL elements

The numbering used by the pullback of tensor elements with symmetries, and the pullback
that each element class returns.
-/

namespace FInAT.Ufl

/-- The loop of `TensorElement.pullback` (`finat/ufl/mixedelement.py` 463-470): a component
takes the number of the component it is mapped to if that has one already, and a new
number otherwise. -/
def pullbackLoop (symmetry : Symmetry) : List (List Nat) → Nat → Dict (List Nat) Nat →
    Except Err (Dict (List Nat) Nat × Nat)
  | [], n, d => .ok (d, n)
  | i :: is, n, d =>
    match symmetry.get? i with
    | none => pullbackLoop symmetry is (n + 1) (d.set i n)
    | some j =>
      match d.get? j with
      | some m => pullbackLoop symmetry is n (d.set i m)
      | none => pullbackLoop symmetry is (n + 1) (d.set i n)

/-- The dictionary given to `SymmetricPullback`, for a tensor element with symmetries, and
the number of values it refers to. All sub-elements are the same element, so the check of
lines 459-462 passes; without sub-elements line 459 is an `IndexError`.
Source: `finat/ufl/mixedelement.py` 465-473. -/
def pullbackNumbers (shape : List Nat) (symmetry : Symmetry) (count : Nat) :
    Except Err (Dict (List Nat) Nat × Nat) :=
  if count = 0 then .error .indexError else pullbackLoop symmetry (indicesOf shape) 0 []

/-- The pullback objects of `ufl.pullback` (external); `MixedPullback` and
`SymmetricPullback` hold the element.
External; used at `finat/ufl/finiteelementbase.py` 249-266; `finat/ufl/mixedelement.py`
271, 473. -/
inductive Pull where
  | identity
  | l2Piola
  | covariantPiola
  | contravariantPiola
  | doubleCovariantPiola
  | doubleContravariantPiola
  | covariantContravariantPiola
  | custom
  | physical
  | mixed (e : UElem)
  | symmetric (e : UElem) (number : Dict (List Nat) Nat)

/-- `FiniteElementBase.pullback` for a mapping (`finat/ufl/finiteelementbase.py` 246-268). -/
def pullbackOf (m : String) : Except Err Pull :=
  if m = "identity" then .ok .identity
  else if m = "L2 Piola" then .ok .l2Piola
  else if m = "covariant Piola" then .ok .covariantPiola
  else if m = "contravariant Piola" then .ok .contravariantPiola
  else if m = "double covariant Piola" then .ok .doubleCovariantPiola
  else if m = "double contravariant Piola" then .ok .doubleContravariantPiola
  else if m = "covariant contravariant Piola" then .ok .covariantContravariantPiola
  else if m = "custom" then .ok .custom
  else if m = "physical" then .ok .physical
  else .error .valueError

/-- `e.pullback`: `finat/ufl/finiteelementbase.py` 246-268, overridden in
`finat/ufl/mixedelement.py` 268-271 (mixed), 353-356 (vector), 457-475 (tensor). -/
def pullback : UElem → Except Err Pull
  | .mixed b subs => .ok (.mixed (.mixed b subs))
  | .vector _ e _ _ => pullback e
  | .tensor b e shape symmetry number count m v =>
    if symmetry.isEmpty then pullback e
    else do
      let (d, _) ← pullbackNumbers shape symmetry count
      .ok (.symmetric (.tensor b e shape symmetry number count m v) d)
  | e => pullbackOf e.mapping

end FInAT.Ufl
