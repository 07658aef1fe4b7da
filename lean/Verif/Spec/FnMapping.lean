import Verif.Model.FiatMapping

/-!
# The mapping of each basis function
-/

namespace FInAT.Spec

open FInAT

mutual
/-- A statement about leaves holds of all leaves of the tree. Quadrature elements have none. -/
def Leaves (P : Leaf → Prop) : Elem → Prop
  | .leaf l => P l
  | .tensorProduct fs => LeavesL P fs
  | .flattened p => Leaves P p
  | .enriched es => LeavesL P es
  | .mixedSub e _ _ => Leaves P e
  | .discontinuous e => Leaves P e
  | .tensorFE e _ _ => Leaves P e
  | .hdiv w => Leaves P w
  | .hcurl w => Leaves P w
  | .quadrature _ _ _ => True
/-- ... of all elements of a list. -/
def LeavesL (P : Leaf → Prop) : List Elem → Prop
  | [] => True
  | e :: es => Leaves P e ∧ LeavesL P es
end

/-- The leaf is as FInAT makes it: FIAT has a mapping `mu l i` for each basis function `i`, and the mapping of the leaf
is computed from them. -/
def LeafMapping (mu : Leaf → Nat → Mapping) (l : Leaf) : Prop :=
  l.mapping = fiatMapping ((List.range l.fns.length).map (mu l))

mutual
/-- Basis function `i` is mapped to the physical cell by `m`, given the mappings of the functions of the leaves. A
product of functions has the mapping of one of them if all others are affine; wrapped functions are H(div) or H(curl)
vectors. -/
def HasMapping (mu : Leaf → Nat → Mapping) : Elem → List Nat → Mapping → Prop
  | .leaf l, i, m => mu l (i.headD 0) = m
  | .tensorProduct fs, i, m => ProductHas mu fs i m
  | .flattened p, i, m => HasMapping mu p i m
  | .enriched es, i, m => SumHas mu es (i.headD 0) m
  | .mixedSub e _ _, i, m => HasMapping mu e i m
  | .discontinuous e, i, m => HasMapping mu e i m
  | .tensorFE e shape transpose, i, m =>
    HasMapping mu e (if transpose then i.drop shape.length else i.take e.indexShape.length) m
  | .hdiv _, _, m => m = .contravariantPiola
  | .hcurl _, _, m => m = .covariantPiola
  | .quadrature _ _ _, _, m => m = .affine
/-- ... for a product of functions, the index being cut into consecutive pieces. -/
def ProductHas (mu : Leaf → Nat → Mapping) : List Elem → List Nat → Mapping → Prop
  | [], _, m => m = .affine
  | f :: fs, i, m =>
    (HasMapping mu f (i.take f.indexShape.length) .affine ∧ ProductHas mu fs (i.drop f.indexShape.length) m) ∨
    (HasMapping mu f (i.take f.indexShape.length) m ∧ ProductHas mu fs (i.drop f.indexShape.length) .affine)
/-- ... for function number `k` of a sum of elements. -/
def SumHas (mu : Leaf → Nat → Mapping) : List Elem → Nat → Mapping → Prop
  | [], _, _ => False
  | e :: es, k, m =>
    if k < e.spaceDim then HasMapping mu e (unravel e.indexShape k) m else SumHas mu es (k - e.spaceDim) m
end

mutual
/-- Every part of the element has basis functions. -/
def Populated : Elem → Prop
  | .leaf l => 0 < l.fns.length
  | .tensorProduct fs => PopulatedL fs
  | .flattened p => Populated p
  | .enriched es => es ≠ [] ∧ PopulatedL es
  | .mixedSub e _ _ => Populated e
  | .discontinuous e => Populated e
  | .tensorFE e shape _ => Populated e ∧ 0 < shape.prod
  | .hdiv w => Populated w
  | .hcurl w => Populated w
  | .quadrature _ _ extents => 0 < extents.prod
/-- ... all elements of a list. -/
def PopulatedL : List Elem → Prop
  | [] => True
  | e :: es => Populated e ∧ PopulatedL es
end

end FInAT.Spec
