import Verif.Spec.Independent
import Verif.Spec.Degree
import Verif.Spec.Quadrature

/-!
# Elements whose functions include all polynomials of their degree
-/

namespace FInAT.Spec

open FInAT

variable {K : Type} [CommRing K]

/-- The function `u` is, on the cell, a finite element function of the element: `a` are its coefficients. -/
def Represents (φ : LeafVals K) (S : Nat → List K → Prop) (e : Elem) (c : Cell) (vs : List Nat)
    (a : List Nat → K) (u : List K → List Nat → K) : Prop :=
  ∀ x z, InCell S c x → InRange z vs → feFunction φ e c a x z = u x z

/-- The monomial with exponents `m` in component `z₀`, and zero in the others. -/
def unitMonomial (c : Cell) (m : ℕ → ℕ) (z₀ : List Nat) (x : List K) (z : List Nat) : K :=
  if z = z₀ then monoVal x ((List.range c.spatialDim).map m) else 0

/-- Every monomial of the degree of the element, in every component, is a function of the element. -/
def Complete (φ : LeafVals K) (S : Nat → List K → Prop) (e : Elem) : Prop :=
  ∀ c t vs, e.cell = .ok c → e.degree = .ok t → e.valueShape = .ok vs → ∀ m z₀, OfDegree c t m → InRange z₀ vs →
    ∃ a, Represents φ S e c vs a (unitMonomial c m z₀)

mutual
/-- Trees made of complete leaves: products of complete trees; products of intervals and quadrilaterals, flattened, the
degree being a number; sums that contain a complete tree of the degree of the sum; vectors and tensors. H(div) and
H(curl) elements, parts of mixed elements, and quadrature elements are not. -/
def CompleteTree (φ : LeafVals K) (S : Nat → List K → Prop) : Elem → Prop
  | .leaf l => Complete φ S (.leaf l)
  | .tensorProduct fs => CompleteTreeL φ S fs
  | .flattened p => CompleteTree φ S p ∧ (∃ d, (Elem.flattened p).degree = .ok (.leaf d)) ∧
      ∃ fs cs, p = .tensorProduct fs ∧ Elem.cellL fs = .ok cs ∧ ∀ c ∈ cs, c = .simplex 1 ∨ c = .quad
  | .enriched es => ∃ t, (Elem.enriched es).degree = .ok t ∧ SomeComplete φ S t es
  | .mixedSub _ _ _ => False
  | .discontinuous e => CompleteTree φ S e
  | .tensorFE e _ _ => CompleteTree φ S e
  | .hdiv _ => False
  | .hcurl _ => False
  | .quadrature _ _ _ => False
/-- ... for lists. -/
def CompleteTreeL (φ : LeafVals K) (S : Nat → List K → Prop) : List Elem → Prop
  | [] => True
  | e :: es => CompleteTree φ S e ∧ CompleteTreeL φ S es
/-- Some tree of the list is complete, and of degree `t`. -/
def SomeComplete (φ : LeafVals K) (S : Nat → List K → Prop) (t : DegTree) : List Elem → Prop
  | [] => False
  | e :: es => (CompleteTree φ S e ∧ e.degree = .ok t) ∨ SomeComplete φ S t es
end

end FInAT.Spec
