import Verif.Spec.Poly
import Verif.Model.Elem
import Mathlib.Algebra.BigOperators.Group.Finset.Basic

/-!
# Polynomials of the degree of an element
-/

namespace FInAT.Spec

open FInAT MvPolynomial

mutual
/-- The largest number in a degree. -/
def largest : DegTree → Nat
  | .leaf d => d
  | .node ts => largestL ts
/-- ... in a list of degrees. -/
def largestL : List DegTree → Nat
  | [] => 0
  | t :: ts => Nat.max (largest t) (largestL ts)
end

mutual
/-- The monomial with exponents `m` (exponent `m j` of coordinate `j`) is of the degree `t` on the cell: on a simplex the sum of the exponents is at
most the degree, on quadrilaterals and hexahedra every exponent, on a product of cells every factor has its own
degree. -/
def OfDegree : Cell → DegTree → (ℕ → ℕ) → Prop
  | .simplex n, .leaf d, m => ((List.range n).map m).sum ≤ d
  | .simplex _, .node _, _ => False
  | .quad, t, m => m 0 ≤ largest t ∧ m 1 ≤ largest t
  | .hex, t, m => m 0 ≤ largest t ∧ m 1 ≤ largest t ∧ m 2 ≤ largest t
  | .prod cs, .leaf d, m => ((List.range (Cell.spatialDimL cs)).map m).sum ≤ d
  | .prod cs, .node ts, m => OfDegreeL cs ts m
/-- ... factor by factor, each with its own coordinates. -/
def OfDegreeL : List Cell → List DegTree → (ℕ → ℕ) → Prop
  | [], [], _ => True
  | c :: cs, t :: ts, m => OfDegree c t m ∧ OfDegreeL cs ts fun j => m (j + c.spatialDim)
  | _, _, _ => False
end

/-- All monomials of the polynomial are of the degree `t` on the cell. -/
def PolyOfDegree {K : Type} [CommRing K] (c : Cell) (t : DegTree) (p : MvPolynomial ℕ K) : Prop :=
  ∀ m ∈ p.support, OfDegree c t m

end FInAT.Spec
