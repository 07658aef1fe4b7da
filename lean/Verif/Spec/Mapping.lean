import Verif.Model.Elem

/-!
# Which parts of an element receive the coordinate mapping
-/

namespace FInAT.Spec

mutual
/-- Some FIAT leaf of the tree satisfies `m`. -/
def Contains (m : Leaf → Prop) : Elem → Prop
  | .leaf l => m l
  | .tensorProduct fs => ContainsL m fs
  | .flattened p => Contains m p
  | .enriched es => ContainsL m es
  | .mixedSub e _ _ => Contains m e
  | .discontinuous e => Contains m e
  | .tensorFE e _ _ => Contains m e
  | .hdiv w => Contains m w
  | .hcurl w => Contains m w
  | .quadrature _ _ _ => False
/-- ... for lists. -/
def ContainsL (m : Leaf → Prop) : List Elem → Prop
  | [] => False
  | e :: es => Contains m e ∨ ContainsL m es
end

mutual
/-- No leaf that satisfies `m` lies below a tensor product, a flattened product or an H(div)/H(curl)
wrapper: the path from the root passes through sums, parts of mixed elements, discontinuous and tensor-valued
elements only. -/
def Reached (m : Leaf → Prop) : Elem → Prop
  | .leaf _ => True
  | .tensorProduct fs => ¬ ContainsL m fs
  | .flattened p => ¬ Contains m p
  | .enriched es => ReachedL m es
  | .mixedSub e _ _ => Reached m e
  | .discontinuous e => Reached m e
  | .tensorFE e _ _ => Reached m e
  | .hdiv w => ¬ Contains m w
  | .hcurl w => ¬ Contains m w
  | .quadrature _ _ _ => True
/-- ... for lists. -/
def ReachedL (m : Leaf → Prop) : List Elem → Prop
  | [] => True
  | e :: es => Reached m e ∧ ReachedL m es
end

mutual
/-- Some leaf of the tree is a quadrature element. -/
def HasQuadrature : Elem → Prop
  | .leaf _ => False
  | .tensorProduct fs => HasQuadratureL fs
  | .flattened p => HasQuadrature p
  | .enriched es => HasQuadratureL es
  | .mixedSub e _ _ => HasQuadrature e
  | .discontinuous e => HasQuadrature e
  | .tensorFE e _ _ => HasQuadrature e
  | .hdiv w => HasQuadrature w
  | .hcurl w => HasQuadrature w
  | .quadrature _ _ _ => True
/-- ... for lists. -/
def HasQuadratureL : List Elem → Prop
  | [] => False
  | e :: es => HasQuadrature e ∨ HasQuadratureL es
end

end FInAT.Spec
