import Verif.Spec.Basis
import Mathlib.Algebra.MvPolynomial.PDeriv

/-!
# Basis functions as polynomials

The basis functions of a composite element as polynomials in the coordinates of the cell (variable `j`
is coordinate `j`), given the polynomials of the leaves, and their partial derivatives.
-/

namespace FInAT.Spec

open FInAT MvPolynomial

variable {K : Type} [CommRing K]

/-- The partial derivative `α` with respect to the variables from number `o` on. -/
noncomputable def partialD (o : Nat) : List Nat → MvPolynomial ℕ K → MvPolynomial ℕ K
  | [], p => p
  | a :: α, p => (pderiv o)^[a] (partialD (o + 1) α p)

/-- Value of a polynomial at the point `x`. -/
noncomputable def evalAt (x : List K) : MvPolynomial ℕ K →+* K := eval fun j => x.getD j 0

/-- The signed component of a vector of polynomials selected by a transformer. -/
noncomputable def compPoly (F : List Nat → MvPolynomial ℕ K) : Comp → MvPolynomial ℕ K
  | .zero => 0
  | .entry false ix => F ix
  | .entry true ix => - F ix

/-- Component `j` of a vector of polynomials given by signed selections. -/
noncomputable def wrapPoly (comps : Except Err (List Comp)) (F : List Nat → MvPolynomial ℕ K) (j : Nat) :
    MvPolynomial ℕ K :=
  match comps with
  | .error _ => 0
  | .ok l => match l[j]? with
    | none => 0
    | some c => compPoly F c

mutual
/-- Component `z` of basis function `i`, as a polynomial. `P l i z` are the leaf polynomials. -/
noncomputable def treePoly (P : Leaf → Nat → List Nat → MvPolynomial ℕ K) :
    Elem → List Nat → List Nat → MvPolynomial ℕ K
  | .leaf l, i, z => P l (i.headD 0) z
  | .tensorProduct fs, i, z => prodPoly P fs i z
  | .flattened p, i, z => treePoly P p i z
  | .enriched es, i, z => sumPoly P es (i.headD 0) z
  | .mixedSub e _ offset, i, z =>
    if offset ≤ z.headD 0 ∧ z.headD 0 < offset + (vshape e).prod then
      treePoly P e i (unravel (vshape e) (z.headD 0 - offset))
    else 0
  | .discontinuous e, i, z => treePoly P e i z
  | .tensorFE e shape transpose, i, z =>
    if (if transpose then i.take shape.length else i.drop e.indexShape.length) = z.take shape.length then
      treePoly P e (if transpose then i.drop shape.length else i.take e.indexShape.length)
        (z.drop shape.length)
    else 0
  | .hdiv w, i, z => wrapPoly (selectHdiv w.factorsOf) (treePoly P w i) (z.headD 0)
  | .hcurl w, i, z => wrapPoly (selectHcurl w.factorsOf) (treePoly P w i) (z.headD 0)
  | .quadrature _ _ _, _, _ => 0
/-- The product of polynomials of the factors, each in its own variables. -/
noncomputable def prodPoly (P : Leaf → Nat → List Nat → MvPolynomial ℕ K) :
    List Elem → List Nat → List Nat → MvPolynomial ℕ K
  | [], _, _ => 1
  | f :: fs, i, z =>
    treePoly P f (i.take f.indexShape.length) (z.take (vshape f).length) *
      rename (· + sdim f) (prodPoly P fs (i.drop f.indexShape.length) (z.drop (vshape f).length))
/-- Function number `k` of a sum of elements. -/
noncomputable def sumPoly (P : Leaf → Nat → List Nat → MvPolynomial ℕ K) :
    List Elem → Nat → List Nat → MvPolynomial ℕ K
  | [], _, _ => 0
  | e :: es, k, z =>
    if k < e.spaceDim then treePoly P e (unravel e.indexShape k) z
    else sumPoly P es (k - e.spaceDim) z
end

end FInAT.Spec
