import Verif.Model.Complex
import Verif.Spec.Basis
import Verif.Lemmas.Poly
import Verif.Spec.Degree

/-!
# Functions that are polynomials on the pieces of a complex
-/

namespace FInAT.Spec

open FInAT MvPolynomial

/-- The dimension of a complex. -/
def sxDim : Sx → Nat
  | .cell c => c.spatialDim
  | .split p _ => sxDim p

mutual
/-- ... -/
def cxDim : Cx → Nat
  | .sx s => sxDim s
  | .prod cs => cxDimL cs
/-- ... -/
def cxDimL : List Cx → Nat
  | [] => 0
  | c :: cs => cxDim c + cxDimL cs
end

variable {K : Type}

/-- A region of space. -/
abbrev Region (K : Type) := List K → Prop

/-- The points whose coordinates are those of a point of the first and a point of the second region. -/
def times (r s : Region K) : Region K := fun x => ∃ y w, x = y ++ w ∧ r y ∧ s w

/-- The pieces of a complex of FIAT: the whole space for a cell, those given by `D` for splittings. -/
def SxPiece (D : Sx → Nat → Region K → Prop) : Sx → Region K → Prop
  | .cell c, r => r = fun x => x.length = c.spatialDim
  | .split p n, r => D p n r

mutual
/-- The pieces of a product are the products of the pieces. -/
def CxPiece (D : Sx → Nat → Region K → Prop) : Cx → Region K → Prop
  | .sx s, r => SxPiece D s r
  | .prod cs, r => CxPieceL D cs r
/-- ... -/
def CxPieceL (D : Sx → Nat → Region K → Prop) : List Cx → Region K → Prop
  | [], r => r = fun x => x = []
  | c :: cs, r => ∃ r1 r2, CxPiece D c r1 ∧ CxPieceL D cs r2 ∧ r = times r1 r2
end

/-- A splitting cuts the pieces of its parent. -/
def Cuts (D : Sx → Nat → Region K → Prop) : Prop :=
  ∀ p n r, D p n r → ∃ r', SxPiece D p r' ∧ ∀ x, r x → r' x

/-- On the region, the values and derivatives of the basis functions are those of polynomials of the degree of the element. -/
def PolynomialOn [CommRing K] (φ : LeafVals K) (e : Elem) (c : Cell) (r : Region K) : Prop :=
  ∀ i z, ∃ q ∈ PolyLt K c.spatialDim, (∀ t, e.degree = .ok t → PolyOfDegree c t q) ∧ ∀ α x, α.length = c.spatialDim → r x →
    basisValue φ e α (c.dimension, 0) x i z = evalAt x (partialD 0 α q)

/-- The complex `k l` belongs to the cell of the leaf, and on each of its pieces the functions are polynomials. -/
def LeafOn [CommRing K] (φ : LeafVals K) (D : Sx → Nat → Region K → Prop) (k : Leaf → Sx) (l : Leaf) : Prop :=
  sxDim (k l) = l.cell.spatialDim ∧ ∀ r, SxPiece D (k l) r → PolynomialOn φ (.leaf l) l.cell r

end FInAT.Spec
