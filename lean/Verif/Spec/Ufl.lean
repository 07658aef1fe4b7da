import Verif.Model.Ufl.ElementList

/-!
# Specification vocabulary for the UFL layer

Small definitions used in the statements about UFL elements; none of them is used by
the model.
-/

namespace FInAT.Ufl

/-- The numbers an order consists of. -/
def Order.parts : Order → List Int
  | .none => []
  | .int r => [r]
  | .tuple rs => rs

/-- The order lies in the registered degree range, component by component. -/
def InRange (e : Entry) (o : Order) : Prop :=
  ∀ z ∈ o.parts, (∀ k, e.kmin = some k → k ≤ z) ∧ (∀ k, e.kmax = some k → z ≤ k)

/-- The family is registered for the named cell. -/
def RegisteredOn (e : Entry) (n : CellName) : Prop :=
  match e.cellnames with
  | .names l => n.str ∈ l
  | .text s => n.str = s

/-- Two descriptions agree on everything except the name used for printing. -/
def Desc.SameUpToShortName (d d' : Desc) : Prop :=
  d'.family = d.family ∧ d'.order = d.order ∧ d'.shape = d.shape ∧
  d'.sobolev = d.sobolev ∧ d'.mapping = d.mapping ∧ d'.embedded = d.embedded

/-- The spaces of the de Rham complex in dimension `n`: H1, then H(curl) and H(div) (in
two dimensions the code documents that it always takes H(curl)), then L2. -/
def deRham (n k : Nat) : Sobolev :=
  if k = 0 then .h1 else if k = n then .l2 else if k = 1 then .hCurl else .hDiv

/-- The pullback of forms of degree `k`; `top` is the one chosen for the highest degree. -/
def formPullback (top : String) (n k : Nat) : String :=
  if k = 0 then "identity" else if k = n then top
  else if k = 1 then "covariant Piola" else "contravariant Piola"

/-- Scalar for `k = 0` and `k = n`, vector otherwise. -/
def formShape (n k : Nat) : List Nat := if k = 0 ∨ k = n then [] else [n]

/-- A family of differential forms in the notation of exterior calculus. -/
structure FeecName where
  /-- the string passed to `FiniteElement` -/
  name : String
  /-- the cells of the family: simplices or cubes -/
  onCubes : Bool
  /-- whether the space of the highest forms has a lower degree (trimmed families) -/
  trimmed : Bool
  /-- whether the highest forms use the L2 pullback -/
  l2 : Bool
deriving DecidableEq

/-- The names of the families of differential forms. -/
def feecNames : List FeecName := [
  ⟨"P-", false, true, false⟩, ⟨"P", false, false, false⟩,
  ⟨"Q-", true, true, false⟩, ⟨"S", true, false, false⟩,
  ⟨"P- Lambda", false, true, false⟩, ⟨"P Lambda", false, false, false⟩,
  ⟨"Q- Lambda", true, true, false⟩, ⟨"S Lambda", true, false, false⟩,
  ⟨"P- L2", false, true, true⟩, ⟨"P L2", false, false, true⟩,
  ⟨"Q- L2", true, true, true⟩, ⟨"S L2", true, false, true⟩,
  ⟨"P- Lambda L2", false, true, true⟩, ⟨"P Lambda L2", false, false, true⟩,
  ⟨"Q- Lambda L2", true, true, true⟩, ⟨"S Lambda L2", true, false, true⟩]

/-- The simplex and the cube of dimension one, two and three. -/
def feecCell (onCubes : Bool) : Nat → CellName
  | 1 => .interval
  | 2 => if onCubes then .quadrilateral else .triangle
  | _ => if onCubes then .hexahedron else .tetrahedron

/-- The order of the space of `k`-forms. -/
def FeecName.order (f : FeecName) (r : Int) (n k : Nat) : Int :=
  if f.trimmed && k == n then r - 1 else r

/-- The family of `k`-forms in `n` dimensions, after the periodic table of finite elements: continuous
functions for `k = 0`, discontinuous ones for `k = n`; between them the edge elements (`k = 1`) and, in three
dimensions, the face elements (`k = 2`) of the first kind for trimmed spaces and of the second kind for full
ones. -/
def FeecName.familyOf (f : FeecName) (n k : Nat) : String :=
  let l2 := if f.l2 then " L2" else ""
  let pick (onSimplices onCubes : String) := if f.onCubes then onCubes else onSimplices
  if k = 0 then pick "Lagrange" (if f.trimmed then "Q" else "S")
  else if k = n then pick "Discontinuous Lagrange" (if f.trimmed then "DQ" else "DPC") ++ l2
  else match f.trimmed, k, n with
    | true, 1, 2 => pick "Nedelec 1st kind H(curl)" "RTCE"
    | true, 1, _ => pick "Nedelec 1st kind H(curl)" "NCE"
    | true, _, _ => pick "Raviart-Thomas" "NCF"
    | false, 1, 2 => pick "Nedelec 2nd kind H(curl)" "BDMCE"
    | false, 1, _ => pick "Nedelec 2nd kind H(curl)" "AAE"
    | false, _, _ => pick "Brezzi-Douglas-Marini" "AAF"

/-- Names that stand for the same family: a short or historical name and the name under
which the family is registered.  In the periodic table of finite elements the letter E
marks edge elements, in H(curl), and the letter F face elements, in H(div). -/
def synonyms : List (String × String) := [
  ("Lob", "Gauss-Lobatto-Legendre"), ("Lobatto", "Gauss-Lobatto-Legendre"),
  ("P", "Lagrange"), ("DP", "Discontinuous Lagrange"), ("DP L2", "Discontinuous Lagrange L2"),
  ("N1div", "Raviart-Thomas"), ("Nedelec 1st kind H(div)", "Raviart-Thomas"),
  ("RTF", "Raviart-Thomas"), ("N1F", "Raviart-Thomas"),
  ("RTE", "Nedelec 1st kind H(curl)"), ("N1E", "Nedelec 1st kind H(curl)"),
  ("N2div", "Brezzi-Douglas-Marini"), ("Nedelec 2nd kind H(div)", "Brezzi-Douglas-Marini"),
  ("BDMF", "Brezzi-Douglas-Marini"), ("N2F", "Brezzi-Douglas-Marini"),
  ("BDME", "Nedelec 2nd kind H(curl)"), ("N2E", "Nedelec 2nd kind H(curl)"),
  ("DGT", "HDiv Trace"), ("Discontinuous Lagrange Trace", "HDiv Trace"),
  ("CG", "Lagrange"), ("DG", "Discontinuous Lagrange"), ("RT", "Raviart-Thomas"),
  ("BDM", "Brezzi-Douglas-Marini"), ("N1curl", "Nedelec 1st kind H(curl)"),
  ("N2curl", "Nedelec 2nd kind H(curl)"), ("CR", "Crouzeix-Raviart"),
  ("R", "Real"), ("B", "Bubble"), ("GL", "Gauss-Legendre"), ("GLL", "Gauss-Lobatto-Legendre"),
  ("ARG", "Argyris"), ("HER", "Hermite"), ("MOR", "Morley"), ("BELL", "Bell"),
  ("HCT", "Hsieh-Clough-Tocher"), ("AWc", "Conforming Arnold-Winther"),
  ("AWnc", "Nonconforming Arnold-Winther"), ("MTW", "Mardal-Tai-Winther")]

end FInAT.Ufl
