import Verif.Model.Ufl.Elem

/-!
# Specification: what the cube families are on products of cells

For C59: the elements that the families Q, DQ, DQ L2, RTCF, RTCE, NCF and NCE stand for on
a product cell, written out.
-/

namespace FInAT.Ufl

/-- The named cells that are cubes of dimension two and more. -/
def CellName.isCube : CellName → Bool
  | .quadrilateral => true
  | .hexahedron => true
  | .tesseract => true
  | _ => false

/-- The named cells that are simplices or cubes. -/
def CellName.isSimplexOrCube : CellName → Bool
  | .vertex => false
  | .prism => false
  | .pyramid => false
  | _ => true

mutual
/-- All products in the cell have factors, and all named cells satisfy a condition. -/
def UCell.Leaves (p : CellName → Bool) : UCell → Prop
  | .named n => p n = true
  | .tensor cs => cs ≠ [] ∧ UCell.Leavess p cs
/-- The same for a list of cells. -/
def UCell.Leavess (p : CellName → Bool) : List UCell → Prop
  | [] => True
  | c :: cs => UCell.Leaves p c ∧ UCell.Leavess p cs
end

/-- An element without sub-elements on a named cell. -/
def plain (family : String) (n : CellName) (r : Int) (shape : List Nat) (s : Sobolev)
    (mapping : String) (v : Option String) : UElem :=
  .fe ⟨family, some (.named n), .int r, none, shape⟩ (.int r) s mapping v (.int r)

/-- A scalar family on cells of all kinds: its name on simplices, its name on cubes, its
Sobolev space and its mapping. -/
structure Scalar where
  simplex : String
  cube : String
  space : Sobolev
  mapping : String

mutual
/-- The degree tree of degree `r` in every direction. -/
def degreeTree (r : Int) : UCell → Deg
  | .named _ => .int r
  | .tensor cs => .tuple (degreeTrees r cs)
/-- The degree trees of several cells. -/
def degreeTrees (r : Int) : List UCell → List Deg
  | [] => []
  | c :: cs => degreeTree r c :: degreeTrees r cs
end

mutual
/-- The scalar family with degree `r` in every direction: on a product, the product of the
same family on the factors, in order. -/
def scalarTree (f : Scalar) (r : Int) (v : Option String) : UCell → UElem
  | .named n => plain (if n.isCube then f.cube else f.simplex) n r [] f.space f.mapping v
  | .tensor cs => .product ⟨"TensorProductElement", some (.tensor cs), degreeTree r (.tensor cs),
      none, []⟩ (scalarTrees f r v cs)
/-- The factors. -/
def scalarTrees (f : Scalar) (r : Int) (v : Option String) : List UCell → List UElem
  | [] => []
  | c :: cs => scalarTree f r v c :: scalarTrees f r v cs
end

/-- Continuous elements. -/
def continuousFamily : Scalar := ⟨"Lagrange", "Q", .h1, "identity"⟩

/-- Discontinuous elements. -/
def discontinuousFamily : Scalar := ⟨"Discontinuous Lagrange", "DQ", .l2, "identity"⟩

/-- Discontinuous elements for densities. -/
def densityFamily : Scalar := ⟨"Discontinuous Lagrange L2", "DQ L2", .l2, "L2 Piola"⟩

/-- Continuous elements on an interval. -/
def contLine (r : Int) (v : Option String) : UElem :=
  plain "Lagrange" .interval r [] .h1 "identity" v

/-- Discontinuous elements on an interval. -/
def discLine (r : Int) (v : Option String) : UElem :=
  plain "Discontinuous Lagrange" .interval r [] .l2 "identity" v

/-- Two factors. -/
def twoFactors (a b : CellName) (da db : Int) (shape : List Nat) (x y : UElem) : UElem :=
  .product ⟨"TensorProductElement", some (.tensor [.named a, .named b]), .tuple [.int da, .int db],
    none, shape⟩ [x, y]

/-- The data of `HDivElement` and `HCurlElement` of a product of two factors. -/
def wrapData (a b : CellName) (da db : Int) (dim : Nat) : Base :=
  ⟨"TensorProductElement", some (.tensor [.named a, .named b]), .tuple [.int da, .int db], none, [dim]⟩

/-- The sum of two elements of the highest degree `r`. -/
def sumOf (a b : CellName) (r : Int) (dim : Nat) (x y : UElem) : UElem :=
  .enriched ⟨"EnrichedElement", some (.tensor [.named a, .named b]), .tuple [.int r, .int r], none, [dim]⟩
    false [x, y]

/-- RTCF on interval x interval: the field has a component that is continuous of degree `r`
in the first direction and discontinuous of degree `r - 1` in the second, and one the
other way round; both in H(div). -/
def rtcf (r : Int) (v : Option String) : UElem :=
  sumOf .interval .interval r 2
    (.hdiv (wrapData .interval .interval r (r - 1) 2)
      (twoFactors .interval .interval r (r - 1) [] (contLine r v) (discLine (r - 1) v)))
    (.hdiv (wrapData .interval .interval (r - 1) r 2)
      (twoFactors .interval .interval (r - 1) r [] (discLine (r - 1) v) (contLine r v)))

/-- RTCE on interval x interval: the same products in H(curl). -/
def rtce (r : Int) (v : Option String) : UElem :=
  sumOf .interval .interval r 2
    (.hcurl (wrapData .interval .interval r (r - 1) 2)
      (twoFactors .interval .interval r (r - 1) [] (contLine r v) (discLine (r - 1) v)))
    (.hcurl (wrapData .interval .interval (r - 1) r 2)
      (twoFactors .interval .interval (r - 1) r [] (discLine (r - 1) v) (contLine r v)))

/-- NCF on quadrilateral x interval: the horizontal part is H(div) of degree `r` times
discontinuous of degree `r - 1`, the vertical part discontinuous of degree `r - 1` times
continuous of degree `r`. -/
def ncf (r : Int) (v : Option String) : UElem :=
  sumOf .quadrilateral .interval r 3
    (.hdiv (wrapData .quadrilateral .interval r (r - 1) 3)
      (twoFactors .quadrilateral .interval r (r - 1) [2]
        (plain "RTCF" .quadrilateral r [2] .hDiv "contravariant Piola" v) (discLine (r - 1) v)))
    (.hdiv (wrapData .quadrilateral .interval (r - 1) r 3)
      (twoFactors .quadrilateral .interval (r - 1) r []
        (plain "DQ" .quadrilateral (r - 1) [] .l2 "identity" v) (contLine r v)))

/-- NCE on quadrilateral x interval: the vertical part is continuous of degree `r` times
discontinuous of degree `r - 1`, the horizontal part H(curl) of degree `r` times
continuous of degree `r`. -/
def nce (r : Int) (v : Option String) : UElem :=
  sumOf .quadrilateral .interval r 3
    (.hcurl (wrapData .quadrilateral .interval r (r - 1) 3)
      (twoFactors .quadrilateral .interval r (r - 1) []
        (plain "Q" .quadrilateral r [] .h1 "identity" v) (discLine (r - 1) v)))
    (.hcurl (wrapData .quadrilateral .interval r r 3)
      (twoFactors .quadrilateral .interval r r [2]
        (plain "RTCE" .quadrilateral r [2] .hCurl "covariant Piola" v) (contLine r v)))

end FInAT.Ufl
