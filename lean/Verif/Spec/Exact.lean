import Verif.Spec.Quadrature
import Verif.Spec.Degree
import Verif.Spec.Kronecker
import Verif.Model.Elem

/-!
# Integrals of polynomials over a cell, and the degree a rule needs
-/

namespace FInAT.Spec

open FInAT MvPolynomial

/-- The integral of a polynomial over the reference cell: monomial by monomial. -/
noncomputable def cellIntegral {K : Type} [Field K] (c : Cell) (p : MvPolynomial ℕ K) : K :=
  ∑ m ∈ p.support, coeff m p * moment c ((List.range c.spatialDim).map m)

/-- One degree per factor: a number stands for itself in every factor. -/
def spread (n : Nat) : DegTree → List DegTree
  | .leaf d => List.replicate n (.leaf d)
  | .node ts => ts

mutual
/-- The sum of two degrees on a cell, as it is passed to `make_quadrature`: a number on simple cells, one degree per
factor on products. -/
def degreeSum : Cell → DegTree → DegTree → Degree
  | .prod cs, s, t => .tup (degreeSumL cs (spread cs.length s) (spread cs.length t))
  | _, s, t => .int (largest s + largest t)
/-- ... factor by factor. -/
def degreeSumL : List Cell → List DegTree → List DegTree → List Degree
  | c :: cs, s :: ss, t :: ts => degreeSum c s t :: degreeSumL cs ss ts
  | _, _, _ => []
end

mutual
/-- No hexahedron in the cell (for hexahedra `make_quadrature` passes on what FIAT has, and of that only the total
degree is assumed). -/
def NoHex : Cell → Prop
  | .hex => False
  | .prod cs => NoHexL cs
  | _ => True
/-- ... in the factors. -/
def NoHexL : List Cell → Prop
  | [] => True
  | c :: cs => NoHex c ∧ NoHexL cs
end

mutual
/-- The point sets of the rules for a cell: not empty, the points in the cell's dimension; one point index on simple
cells, a product of point sets, one for each factor, on products and on quadrilaterals. -/
def RulePoints {K : Type} : Cell → PSet K → Prop
  | .prod cs, ps => (ps.pts ≠ [] ∧ ∀ x ∈ ps.pts, x.length = Cell.spatialDimL cs) ∧ ∃ pss, ps = .tensor pss ∧ RulePointsL cs pss
  | .quad, ps => (ps.pts ≠ [] ∧ ∀ x ∈ ps.pts, x.length = 2) ∧
      ∃ cls₁ pts₁ i₁ cls₂ pts₂ i₂, ps = .tensor [.points cls₁ pts₁ [i₁], .points cls₂ pts₂ [i₂]] ∧
        (pts₁ ≠ [] ∧ ∀ x ∈ pts₁, x.length = 1) ∧ (pts₂ ≠ [] ∧ ∀ x ∈ pts₂, x.length = 1)
  | c, ps => (ps.pts ≠ [] ∧ ∀ x ∈ ps.pts, x.length = c.spatialDim) ∧ ∃ cls pts i, ps = .points cls pts [i]
/-- ... for the factors. -/
def RulePointsL {K : Type} : List Cell → List (PSet K) → Prop
  | [], [] => True
  | c :: cs, p :: ps => RulePoints c p ∧ RulePointsL cs ps
  | _, _ => False
end

mutual
/-- What is flattened is on the product of two intervals. -/
def Squares : Elem → Prop
  | .leaf _ => True
  | .tensorProduct fs => SquaresL fs
  | .flattened p => Squares p ∧ p.cell = .ok (.prod [.simplex 1, .simplex 1])
  | .enriched es => SquaresL es
  | .mixedSub e _ _ => Squares e
  | .discontinuous e => Squares e
  | .tensorFE e _ _ => Squares e
  | .hdiv w => Squares w
  | .hcurl w => Squares w
  | .quadrature _ _ _ => True
/-- ... for lists. -/
def SquaresL : List Elem → Prop
  | [] => True
  | e :: es => Squares e ∧ SquaresL es
end

end FInAT.Spec
