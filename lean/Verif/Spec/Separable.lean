import Verif.Spec.Interpolate

/-!
# Functions that are products

`Piece`: an element, a function on its cell, and a callable evaluating the function.
`productFunction`: the product of the functions, each of its own variables and components.
-/

namespace FInAT.Spec

open FInAT

/-- A factor of a tensor product element with a function to interpolate into it. -/
structure Piece (K : Type) where
  elem : Elem
  /-- The callable given to `dual_evaluation`. -/
  fn : PSet K → M (Gem K)
  /-- The function it evaluates, of the values of the other indices, the point and the component. -/
  func : (Nat → Nat) → List K → List Nat → K

variable {K : Type} [CommRing K]

/-- `f(x, y, …) = g(x) h(y) …`: the coordinates of the point and the components of the value are cut into
consecutive pieces, one per factor. -/
def productFunction (ρ : Nat → Nat) : List (Piece K) → List K → List Nat → K
  | [], _, _ => 1
  | p :: ps, x, z => p.func ρ (x.take (sdim p.elem)) (z.take (vshape p.elem).length) *
      productFunction ρ ps (x.drop (sdim p.elem)) (z.drop (vshape p.elem).length)

/-- The coefficient `i` in a result `r` of `dual_evaluation` of `e`, given the values of other indices. -/
def coefficient (e : Elem) (r : Gem K × List Index) (ρ : Nat → Nat) (i : List Nat) : K :=
  r.1.eval (bindIx ρ r.2 (interpolated e i)) []

/-- The product of the coefficients `i₁, i₂, …` of the results `r₁, r₂, …` for the parts. -/
def coefficientProduct (ρ : Nat → Nat) : List (Piece K) → List (Gem K × List Index) → List (List Nat) → K
  | p :: ps, r :: rs, i :: is => coefficient p.elem r ρ i * coefficientProduct ρ ps rs is
  | _, _, _ => 1

end FInAT.Spec
