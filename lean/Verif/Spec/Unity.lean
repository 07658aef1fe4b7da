import Verif.Spec.Independent
import Mathlib.Algebra.Order.Ring.Defs

/-!
# Basis functions that sum to one

Lagrange and Bernstein elements have this property, and the functions of the Bernstein elements are also nowhere negative.
-/

namespace FInAT.Spec

open FInAT

section
variable {K : Type} [CommRing K]

/-- In every component and at every point of the cell the values of the basis functions sum to one, and those of their
derivatives of any order to zero. -/
def SumsToOne (φ : LeafVals K) (S : Nat → List K → Prop) (e : Elem) : Prop :=
  ∀ c vs, e.cell = .ok c → e.valueShape = .ok vs → ∀ α x z, α.length = c.spatialDim → InCell S c x → InRange z vs →
    ((ndindex e.indexShape).map fun j => basisValue φ e α (c.dimension, 0) x j z).sum =
      if α = List.replicate c.spatialDim 0 then 1 else 0

/-- The basis functions are nowhere negative on the cell. -/
def NonNegative [LE K] (φ : LeafVals K) (S : Nat → List K → Prop) (e : Elem) : Prop :=
  ∀ c vs, e.cell = .ok c → e.valueShape = .ok vs → ∀ x j z, InCell S c x → InRange j e.indexShape → InRange z vs →
    0 ≤ basisValue φ e (List.replicate c.spatialDim 0) (c.dimension, 0) x j z

end

mutual
/-- Trees of products, flattened products of cubes, vectors, tensors and discontinuous elements, with leaves for which `P`
holds. -/
def ProductTree (P : Leaf → Prop) : Elem → Prop
  | .leaf l => P l
  | .tensorProduct fs => ProductTreeL P fs
  | .flattened p => ProductTree P p ∧ ∀ c, p.cell = .ok c → IsCube c
  | .enriched _ => False
  | .mixedSub _ _ _ => False
  | .discontinuous e => ProductTree P e
  | .tensorFE e _ _ => ProductTree P e
  | .hdiv _ => False
  | .hcurl _ => False
  | .quadrature _ _ _ => False
/-- ... for lists. -/
def ProductTreeL (P : Leaf → Prop) : List Elem → Prop
  | [] => True
  | e :: es => ProductTree P e ∧ ProductTreeL P es
end

end FInAT.Spec
