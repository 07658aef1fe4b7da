import Verif.Model.Ufl.Elem

/-!
# `repr`, equality, hash and order of UFL elements

`repr` is modelled as the sequence of the pieces of the text: names, brackets, commas,
keywords, and the `repr` of strings, cells, numbers, shapes and dictionaries as single
pieces.  How the pieces are written down is a parameter `render`.
-/

namespace FInAT.Ufl

/-- A piece of the text of a `repr`.
Source: `finat/ufl/finiteelement.py` 174-175; `finat/ufl/mixedelement.py` 324, 454-455. -/
inductive Tok where
  | name (s : String)
  | lpar
  | rpar
  | comma
  | kw (s : String)
  | str (s : String)
  | cell (c : Option UCell)
  | order (o : Order)
  | nat (n : Nat)
  | shape (s : List Nat)
  | sym (d : Symmetry)

/-- `, key=value` if the value is given (`finat/ufl/finiteelement.py` 164-173,
`mixedelement.py` 317-320). -/
def optKw (k : String) : Option String → List Tok
  | none => []
  | some s => [.comma, .kw k, .str s]

mutual
/-- `repr(e)`: `finat/ufl/finiteelement.py` 163-180, `mixedelement.py` 76-78, 319-328,
451-455, 477-479, `tensorproductelement.py` 66-68, `enrichedelement.py` 118-120, 144-146,
`hdivcurl.py` 56-58, 115-117, 179-181, `restrictedelement.py` 39-41, `brokenelement.py`
30-32. -/
def repr : UElem → List Tok
  | .fe b o _ _ v _ =>
    [.name "FiniteElement", .lpar, .str b.family, .comma, .cell b.cell, .comma, .order o] ++
      (optKw "quad_scheme" b.quadScheme ++ (optKw "variant" v ++ [.rpar]))
  | .mixed _ subs => [.name "MixedElement", .lpar] ++ (reprs subs ++ [.rpar])
  | .vector _ e dim v =>
    [.name "VectorElement", .lpar] ++ (repr e ++ ([.comma, .kw "dim", .nat dim] ++
      (optKw "variant" v ++ [.rpar])))
  | .tensor _ e shape sym _ _ _ v =>
    [.name "TensorElement", .lpar] ++ (repr e ++ ([.comma, .kw "shape", .shape shape,
      .comma, .kw "symmetry", .sym sym] ++ (optKw "variant" v ++ [.rpar])))
  | .product b subs =>
    [.name "TensorProductElement", .lpar] ++ (reprs subs ++
      [.comma, .kw "cell", .cell b.cell, .rpar])
  | .enriched _ nodal subs =>
    [.name (if nodal then "NodalEnrichedElement" else "EnrichedElement"), .lpar] ++
      (reprs subs ++ [.rpar])
  | .hdiv _ e => [.name "HDivElement", .lpar] ++ (repr e ++ [.rpar])
  | .hcurl _ e => [.name "HCurlElement", .lpar] ++ (repr e ++ [.rpar])
  | .withMapping e m => [.name "WithMapping", .lpar] ++ (repr e ++ [.comma, .str m, .rpar])
  | .restricted _ e d =>
    [.name "RestrictedElement", .lpar] ++ (repr e ++ [.comma, .str d, .rpar])
  | .broken _ e => [.name "BrokenElement", .lpar] ++ (repr e ++ [.rpar])
/-- `", ".join(repr(e) for e in elements)`.
Source: `finat/ufl/mixedelement.py` 78; `finat/ufl/tensorproductelement.py` 68. -/
def reprs : List UElem → List Tok
  | [] => []
  | e :: es => repr e ++ reprsTail es
/-- The elements after the first, each after a comma.
Source: `finat/ufl/mixedelement.py` 78; `finat/ufl/tensorproductelement.py` 68. -/
def reprsTail : List UElem → List Tok
  | [] => []
  | e :: es => .comma :: (repr e ++ reprsTail es)
end

/-- `type(e)`, by the name of the class.
Source: `finat/ufl/finiteelementbase.py` 89. -/
def className : UElem → String
  | .fe .. => "FiniteElement"
  | .mixed .. => "MixedElement"
  | .vector .. => "VectorElement"
  | .tensor .. => "TensorElement"
  | .product .. => "TensorProductElement"
  | .enriched _ nodal _ => if nodal then "NodalEnrichedElement" else "EnrichedElement"
  | .hdiv .. => "HDivElement"
  | .hcurl .. => "HCurlElement"
  | .withMapping .. => "WithMapping"
  | .restricted .. => "RestrictedElement"
  | .broken .. => "BrokenElement"

/-- `a == b` (`finat/ufl/finiteelementbase.py` 83-85). -/
def ueq (render : List Tok → String) (a b : UElem) : Bool :=
  className a == className b && render (repr a) == render (repr b)

/-- `a != b` (`finat/ufl/finiteelementbase.py` 87-89). -/
def une (render : List Tok → String) (a b : UElem) : Bool := !ueq render a b

/-- `hash(a)` (`finat/ufl/finiteelementbase.py` 79-81), for the digest `md5`. -/
def uhash (render : List Tok → String) (md5 : String → Nat) (a : UElem) : Nat :=
  md5 (render (repr a))

/-- `a < b` (`finat/ufl/finiteelementbase.py` 91-93): Python compares strings by code
points, as Lean does. -/
def ult (render : List Tok → String) (a b : UElem) : Prop := render (repr a) < render (repr b)

/-- `reconstruct_from_elements` (`finat/ufl/mixedelement.py` 84-88): `zip` stops at the end
of the shorter list. -/
def reconstructFromElements (render : List Tok → String) (self : UElem) (own : List UElem)
    (elements : List UElem) : Except Err UElem :=
  if (List.zip elements own).all (fun p => ueq render p.1 p.2) then .ok self
  else mkMixed elements

end FInAT.Ufl
