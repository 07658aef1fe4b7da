import Verif.Spec.Interpolate

/-!
# Linear independence of the basis functions

An element is *independent* when its basis functions are: a finite element function that vanishes on the cell has only zero
coefficients. So `space_dimension()` is the dimension of the space that the basis functions span.
-/

namespace FInAT.Spec

open FInAT

variable {K : Type} [CommRing K]

mutual
/-- The points of a cell, given the points `S d` of the simplex of dimension `d`: quadrilaterals and hexahedra are products of
intervals. (For rational points, `S 1 [x]` is `0 ≤ x ∧ x ≤ 1`; nothing is assumed of `S`.) -/
def InCell (S : Nat → List K → Prop) : Cell → List K → Prop
  | .simplex d, x => x.length = d ∧ S d x
  | .quad, x => x.length = 2 ∧ ∀ t ∈ x, S 1 [t]
  | .hex, x => x.length = 3 ∧ ∀ t ∈ x, S 1 [t]
  | .prod cs, x => InCellL S cs x
/-- The coordinates of a point of a product are those of points of the factors, one after the other. -/
def InCellL (S : Nat → List K → Prop) : List Cell → List K → Prop
  | [], x => x = []
  | c :: cs, x => ∃ y w, x = y ++ w ∧ InCell S c y ∧ InCellL S cs w
end

/-- The finite element function with coefficients `a` is zero on the cell. -/
def Vanishes (φ : LeafVals K) (S : Nat → List K → Prop) (e : Elem) (c : Cell) (vs : List Nat) (a : List Nat → K) : Prop :=
  ∀ x z, InCell S c x → InRange z vs → feFunction φ e c a x z = 0

/-- The basis functions of the element are linearly independent. -/
def Independent (φ : LeafVals K) (S : Nat → List K → Prop) (e : Elem) : Prop :=
  ∀ c vs, e.cell = .ok c → e.valueShape = .ok vs → ∀ a, Vanishes φ S e c vs a → ∀ j, InRange j e.indexShape → a j = 0

/-- The sum of a function of each element, `a k` the coefficients of the function of element number `k`. -/
def sumOfFunctions (φ : LeafVals K) (c : Cell) (x : List K) (z : List Nat) : List Elem → (Nat → List Nat → K) → K
  | [], _ => 0
  | e :: es, a => feFunction φ e c (a 0) x z + sumOfFunctions φ c x z es fun k => a (k + 1)

/-- The sum of the spaces of the elements is direct: if functions of the elements add up to zero, each of them is zero. -/
def DirectSum (φ : LeafVals K) (S : Nat → List K → Prop) (es : List Elem) (c : Cell) (vs : List Nat) : Prop :=
  ∀ a : Nat → List Nat → K, (∀ x z, InCell S c x → InRange z vs → sumOfFunctions φ c x z es a = 0) →
    ∀ k e, es[k]? = some e → Vanishes φ S e c vs (a k)

mutual
/-- Trees with independent leaves, in which sums are direct, flattened cells are cubes, and H(div) and H(curl) wrappers keep all
components of the element they wrap. -/
def IndependentTree (φ : LeafVals K) (S : Nat → List K → Prop) : Elem → Prop
  | .leaf l => Independent φ S (.leaf l)
  | .tensorProduct fs => IndependentTreeL φ S fs
  | .flattened p => IndependentTree φ S p ∧ ∀ c, p.cell = .ok c → IsCube c
  | .enriched es => IndependentTreeL φ S es ∧ ∀ c vs, (Elem.enriched es).cell = .ok c → (Elem.enriched es).valueShape = .ok vs →
      DirectSum φ S es c vs
  | .mixedSub e _ _ => IndependentTree φ S e
  | .discontinuous e => IndependentTree φ S e
  | .tensorFE e _ _ => IndependentTree φ S e
  | .hdiv w => IndependentTree φ S w ∧ Placement K (selectHdiv w.factorsOf) (sdim w) (vshape w)
  | .hcurl w => IndependentTree φ S w ∧ Placement K (selectHcurl w.factorsOf) (sdim w) (vshape w)
  | .quadrature r c ext => Independent φ S (.quadrature r c ext)
/-- ... for lists. -/
def IndependentTreeL (φ : LeafVals K) (S : Nat → List K → Prop) : List Elem → Prop
  | [] => True
  | e :: es => IndependentTree φ S e ∧ IndependentTreeL φ S es
end

end FInAT.Spec
