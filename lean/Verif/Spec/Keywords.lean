import Verif.Model.Ufl.Keywords
import Mathlib.Data.List.Forall2

/-!
# Specification vocabulary for reconstruction with keyword arguments
-/

namespace FInAT.Ufl

/-- Two elements composed in the same way: the same kinds of elements, dimensions, tensor
shapes, symmetries, restrictions, mappings and product cells, with simple parts related by
`R`, one by one. -/
inductive Alike (R : UElem → UElem → Prop) : UElem → UElem → Prop
  | fe {b o so m v em b' o' so' m' v' em'}
      (h : R (.fe b o so m v em) (.fe b' o' so' m' v' em')) :
      Alike R (.fe b o so m v em) (.fe b' o' so' m' v' em')
  | mixed {b b' subs subs'} (h : List.Forall₂ (Alike R) subs subs') :
      Alike R (.mixed b subs) (.mixed b' subs')
  | vector {b b' s s' dim v v'} (h : Alike R s s') :
      Alike R (.vector b s dim v) (.vector b' s' dim v')
  | tensor {b b' s s' sh sy n c m n' c' m' v v'} (h : Alike R s s') :
      Alike R (.tensor b s sh sy n c m v) (.tensor b' s' sh sy n' c' m' v')
  | product {b b' subs subs'} (h : List.Forall₂ (Alike R) subs subs')
      (hc : b'.cell = b.cell) : Alike R (.product b subs) (.product b' subs')
  | enriched {b b' n subs subs'} (h : List.Forall₂ (Alike R) subs subs') :
      Alike R (.enriched b n subs) (.enriched b' n subs')
  | hdiv {b b' s s'} (h : Alike R s s') : Alike R (.hdiv b s) (.hdiv b' s')
  | hcurl {b b' s s'} (h : Alike R s s') : Alike R (.hcurl b s) (.hcurl b' s')
  | withMapping {s s' m} (h : Alike R s s') : Alike R (.withMapping s m) (.withMapping s' m)
  | restricted {b b' s s' d} (h : Alike R s s') :
      Alike R (.restricted b s d) (.restricted b' s' d)
  | broken {b b' s s'} (h : Alike R s s') : Alike R (.broken b s) (.broken b' s')

/-- The second simple element is the first with its degree, quadrature scheme and variant
replaced: the same family, cell, value shape, Sobolev space and mapping. -/
def Replaced (degree : Order) (quad variant : Option String) : UElem → UElem → Prop
  | .fe b o so m v _, .fe b' o' so' m' v' _ =>
    b'.family = b.family ∧ b'.cell = b.cell ∧ b'.shape = b.shape ∧ so' = so ∧ m' = m ∧
    o' = (if degree = .none then o else degree) ∧
    b'.quadScheme = (if quad = none then b.quadScheme else quad) ∧
    v' = (if variant = none then v else variant)
  | _, _ => False

/-- Keywords that replace the degree, the quadrature scheme and the variant, and nothing
else. -/
def replacing (degree : Order) (quad variant : Option String) : Keywords :=
  { degree := degree, quadScheme := quad, variant := variant }

/-- The keywords of a second call on top of those of a first: the second wins where it
says something. -/
def later (second first : Option String) : Option String :=
  if second = none then first else second

mutual
/-- The simple elements an element is made of, in order; a vector or tensor element is
made of one element. -/
def leaves : UElem → List UElem
  | .fe b o so m v em => [.fe b o so m v em]
  | .mixed _ subs => leavess subs
  | .vector _ s _ _ => leaves s
  | .tensor _ s _ _ _ _ _ _ => leaves s
  | .product _ subs => leavess subs
  | .enriched _ _ subs => leavess subs
  | .hdiv _ s => leaves s
  | .hcurl _ s => leaves s
  | .withMapping s _ => leaves s
  | .restricted _ s _ => leaves s
  | .broken _ s => leaves s
/-- The simple elements several elements are made of. -/
def leavess : List UElem → List UElem
  | [] => []
  | e :: es => leaves e ++ leavess es
end

mutual
/-- No broken element and no mixed element of nothing occurs. -/
def Unbroken : UElem → Prop
  | .fe .. => True
  | .mixed _ subs => subs ≠ [] ∧ Unbrokens subs
  | .vector _ s _ _ => Unbroken s
  | .tensor _ s _ _ _ _ _ _ => Unbroken s
  | .product _ subs => subs ≠ [] ∧ Unbrokens subs
  | .enriched _ _ subs => subs ≠ [] ∧ Unbrokens subs
  | .hdiv _ s => Unbroken s
  | .hcurl _ s => Unbroken s
  | .withMapping s _ => Unbroken s
  | .restricted _ s _ => Unbroken s
  | .broken _ _ => False
/-- All of several elements are so. -/
def Unbrokens : List UElem → Prop
  | [] => True
  | e :: es => Unbroken e ∧ Unbrokens es
end

mutual
/-- No tensor product element occurs. -/
def NoProduct : UElem → Prop
  | .fe .. => True
  | .mixed _ subs => NoProducts subs
  | .vector _ s _ _ => NoProduct s
  | .tensor _ s _ _ _ _ _ _ => NoProduct s
  | .product _ _ => False
  | .enriched _ _ subs => NoProducts subs
  | .hdiv _ s => NoProduct s
  | .hcurl _ s => NoProduct s
  | .withMapping s _ => NoProduct s
  | .restricted _ s _ => NoProduct s
  | .broken _ s => NoProduct s
/-- None of several elements has one. -/
def NoProducts : List UElem → Prop
  | [] => True
  | e :: es => NoProduct e ∧ NoProducts es
end

end FInAT.Ufl
