import Verif.Spec.Dual
import Verif.Spec.Tab
import Verif.Lemmas.Admits

/-!
# Interpolating a finite element function

`feFunction`: the function with given coefficients. `feExpression`: the expression a client of FInAT (a
form compiler) builds to evaluate such a function at the points of a point set: it tabulates the element
and contracts with the coefficients. `interpolated e i`: where `dual_evaluation` returns the coefficient
`i`.
-/

namespace FInAT.Spec

open FInAT

variable {K : Type} [CommRing K]

/-- The finite element function with coefficients `a`: the sum of the coefficients times the basis
functions. -/
def feFunction (φ : LeafVals K) (e : Elem) (c : Cell) (a : List Nat → K) (x : List K) (z : List Nat) : K :=
  ((ndindex e.indexShape).map fun j =>
    a j * basisValue φ e (List.replicate c.spatialDim 0) (c.dimension, 0) x j z).sum

/-- What a client does to evaluate a finite element function at points: tabulate (`basis_evaluation`, no
derivatives), multiply the table with the tensor of coefficients and sum over the basis functions.
External; the way in which `basis_evaluation` (`finat/finiteelementbase.py` 151-162) is used. -/
def feExpression (F : Fiat K) (R : Rules K) (e : Elem) (coeffs : Gem K) (ps : PSet K) : M (Gem K) := do
  let T ← evaluate (basisInterp F R) e 0 ps none
  let c ← liftE e.cell
  let vs ← liftE e.valueShape
  let t ← liftE (Dict.get T (List.replicate c.spatialDim 0))
  let beta ← freshIndices e.indexShape
  let zeta ← freshIndices vs
  let ti ← mkIndexed t ((beta ++ zeta).map .free)
  let ai ← mkIndexed coeffs (beta.map .free)
  let p ← mkProduct ai ti
  let s ← mkIndexSum p beta
  mkComponentTensor s zeta

variable [DecidableEq K]

mutual
/-- Elements that can be tabulated at the points of their own dual basis: the FIAT elements can be tabulated
at unstructured points and their functionals use points of the cell; flattened products live on cubes; the
point sets of quadrature elements are equal to themselves (up to rounding), have distinct points and the
dimension of the cell. -/
def InterpOK (F : Fiat K) (D : FiatDual K) (R : Rules K) : Elem → Prop
  | .leaf l => PlainLeafOK F 0 l ∧ ∀ nd ∈ D.nodes l, ∀ pt ∈ nd.ptDict.keys, pt.length = l.cell.spatialDim
  | .tensorProduct fs => InterpOKL F D R fs
  | .flattened p => InterpOK F D R p ∧ ∀ c, p.cell = .ok c → IsCube c
  | .enriched _ => False
  | .mixedSub _ _ _ => False
  | .discontinuous e => InterpOK F D R e
  | .tensorFE e _ _ => InterpOK F D R e
  | .hdiv w => InterpOK F D R w
  | .hcurl w => InterpOK F D R w
  | .quadrature r c _ => (R.pointSet r).almostEqual R.close (R.pointSet r) = .ok true ∧
      (R.pointSet r).pts.Nodup ∧ (R.pointSet r).dimension = .ok c.spatialDim ∧
      (R.pointSet r).pts ≠ [] ∧ ∀ pt ∈ (R.pointSet r).pts, pt.length = c.spatialDim
/-- ... for lists. -/
def InterpOKL (F : Fiat K) (D : FiatDual K) (R : Rules K) : List Elem → Prop
  | [] => True
  | e :: es => InterpOK F D R e ∧ InterpOKL F D R es
end

/-- The extents of the index tuple that `dual_evaluation` returns: the index shape, except for transposed
tensor-valued elements, where the indices of the base element come first (see `C21_transposed`). -/
def interpolatedShape : Elem → List Nat
  | .tensorFE b shape true => b.indexShape ++ shape
  | e => e.indexShape

/-- The value of the returned index tuple that selects coefficient `i`. -/
def interpolated : Elem → List Nat → List Nat
  | .tensorFE _ shape true, i => i.drop shape.length ++ i.take shape.length
  | _, i => i

end FInAT.Spec
