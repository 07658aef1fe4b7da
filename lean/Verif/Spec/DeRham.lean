import Verif.Spec.Basis
import Verif.Spec.Independent

/-!
# Gradients, curls and divergences of finite element functions
-/

namespace FInAT.Spec

open FInAT

variable {K : Type} [CommRing K]

/-- A function with all its derivatives: derivative, point, component. -/
abbrev Jet (K : Type) := List Nat → List K → List Nat → K

/-- `f` is a function of the element on the cell `c` with value shape `vs`: a linear combination of the basis functions, and its
derivatives are those combinations of theirs. -/
def InSpace (φ : LeafVals K) (e : Elem) (c : Cell) (vs : List Nat) (f : Jet K) : Prop :=
  ∃ a : List Nat → K, ∀ α x z, α.length = c.spatialDim → x.length = c.spatialDim → InRange z vs →
    f α x z = ((ndindex e.indexShape).map fun j => a j * basisValue φ e α (c.dimension, 0) x j z).sum

/-- One derivative more along axis `k`. -/
def bump (k : Nat) (α : List Nat) : List Nat := α.modify k (· + 1)

/-- The partial derivative along axis `k` of component `z`. -/
def partialAt (k : Nat) (z : List Nat) (f : Jet K) : Jet K := fun α x _ => f (bump k α) x z

/-- The gradient of a scalar function. -/
def gradJet (f : Jet K) : Jet K := fun α x z => f (bump (z.headD 0) α) x []

/-- In two dimensions: the gradient of a scalar function, turned clockwise: (∂f/∂y, -∂f/∂x). -/
def rotJet (f : Jet K) : Jet K := fun α x z => if z.headD 0 = 0 then f (bump 1 α) x [] else - f (bump 0 α) x []

/-- The divergence of a vector field in `d` dimensions. -/
def divJet (d : Nat) (f : Jet K) : Jet K := fun α x _ => ((List.range d).map fun k => f (bump k α) x [k]).sum

/-- In two dimensions: the curl of a vector field, a scalar. -/
def curlJet (f : Jet K) : Jet K := fun α x _ => f (bump 0 α) x [1] - f (bump 1 α) x [0]

/-- Elements on the interval for 0-forms and for 1-forms, such as continuous elements of degree `k + 1` and discontinuous
elements of degree `k`: scalar, mapped by composition, and the derivative of every function of the first is a function of the
second. -/
structure IntervalComplex (φ : LeafVals K) (a b : Elem) : Prop where
  cellA : a.cell = .ok (.simplex 1)
  cellB : b.cell = .ok (.simplex 1)
  scalarA : a.valueShape = .ok []
  scalarB : b.valueShape = .ok []
  formA : a.formdegree = .ok (some 0)
  formB : b.formdegree = .ok (some 1)
  mapA : a.mapping = some .affine
  mapB : b.mapping = some .affine
  derives : ∀ f, InSpace φ a (.simplex 1) [] f → InSpace φ b (.simplex 1) [] (partialAt 0 [] f)

/-- Every function of the second element on the interval is the derivative of a function of the first. -/
def Antiderivatives (φ : LeafVals K) (a b : Elem) : Prop :=
  ∀ g, InSpace φ b (.simplex 1) [] g → ∃ f, InSpace φ a (.simplex 1) [] f ∧
    ∀ α x, α.length = 1 → x.length = 1 → partialAt 0 [] f α x [] = g α x []

/-- The function one. -/
def oneJet : Jet K := fun α _ _ => if α = [0] then 1 else 0

/-- The element contains the constants, and only constants have derivative zero. -/
def OnlyConstants (φ : LeafVals K) (a : Elem) : Prop :=
  InSpace φ a (.simplex 1) [] oneJet ∧ ∀ f, InSpace φ a (.simplex 1) [] f →
    (∀ α x, α.length = 1 → x.length = 1 → partialAt 0 [] f α x [] = 0) →
    ∀ α x, α.length = 1 → x.length = 1 → f α x [] = f [0] [0] [] * oneJet α x []

/-- The square of intervals. -/
def square : Cell := .prod [.simplex 1, .simplex 1]

end FInAT.Spec

namespace FInAT.Spec

open FInAT

variable {K : Type} [CommRing K]

/-- In three dimensions: the curl of a vector field. -/
def curl3Jet (f : Jet K) : Jet K := fun α x z =>
  match z.headD 0 with
  | 0 => f (bump 1 α) x [2] - f (bump 2 α) x [1]
  | 1 => f (bump 2 α) x [0] - f (bump 0 α) x [2]
  | _ => f (bump 0 α) x [1] - f (bump 1 α) x [0]

/-- Elements for 0-, 1- and 2-forms on a cell of dimension two, such as continuous, Nedelec and discontinuous elements on the
triangle: gradients of functions of the first are functions of the second, curls of functions of the second are functions of the
third. -/
structure PlaneComplex (φ : LeafVals K) (H : Cell) (p n d : Elem) : Prop where
  dim : H.spatialDim = 2
  cellP : p.cell = .ok H
  cellN : n.cell = .ok H
  cellD : d.cell = .ok H
  scalarP : p.valueShape = .ok []
  vectorN : n.valueShape = .ok [2]
  scalarD : d.valueShape = .ok []
  formP : p.formdegree = .ok (some 0)
  formN : n.formdegree = .ok (some 1)
  formD : d.formdegree = .ok (some 2)
  mapP : p.mapping = some .affine
  mapN : n.mapping = some .covariantPiola
  gradient : ∀ f, InSpace φ p H [] f → InSpace φ n H [2] (gradJet f)
  curl : ∀ f, InSpace φ n H [2] f → InSpace φ d H [] (curlJet f)

/-- The same with elements for 1-forms given by their normal components, such as Raviart-Thomas elements on the triangle: turned
gradients of functions of the first are functions of the second, divergences of functions of the second are functions of the
third. -/
structure PlaneFluxComplex (φ : LeafVals K) (H : Cell) (p r d : Elem) : Prop where
  dim : H.spatialDim = 2
  cellP : p.cell = .ok H
  cellR : r.cell = .ok H
  cellD : d.cell = .ok H
  scalarP : p.valueShape = .ok []
  vectorR : r.valueShape = .ok [2]
  scalarD : d.valueShape = .ok []
  formP : p.formdegree = .ok (some 0)
  formR : r.formdegree = .ok (some 1)
  formD : d.formdegree = .ok (some 2)
  mapP : p.mapping = some .affine
  mapR : r.mapping = some .contravariantPiola
  rot : ∀ f, InSpace φ p H [] f → InSpace φ r H [2] (rotJet f)
  divergence : ∀ f, InSpace φ r H [2] f → InSpace φ d H [] (divJet 2 f)

/-- The prism over the plane cell. -/
def prism (H : Cell) : Cell := .prod [H, .simplex 1]

end FInAT.Spec
