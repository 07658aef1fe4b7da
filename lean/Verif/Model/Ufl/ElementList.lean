import Verif.Py.Basic

/-!
# The UFL element list

Model of `finat/ufl/elementlist.py`: the registered families, their aliases, the
finite element exterior calculus notation and `canonical_element_description`.

`ufl.cell` is an external package.  Its cells are transcribed below: ten named
cells with their topological dimension and products of cells.  Warnings are not
modelled.  The polynomial order is `None`, an integer or a tuple of integers.
-/

namespace FInAT.Ufl

/-- The named cells of `ufl.cell.Cell` (external; used through `cell.cellname()`,
`finat/ufl/elementlist.py` 391-399). -/
inductive CellName where
  | vertex | interval | triangle | quadrilateral | tetrahedron | hexahedron
  | prism | pyramid | pentatope | tesseract
deriving DecidableEq, Repr

/-- `cell.cellname()` of a named cell.
External; used at `finat/ufl/elementlist.py` 80-82, 393. -/
def CellName.str : CellName → String
  | .vertex => "vertex" | .interval => "interval" | .triangle => "triangle"
  | .quadrilateral => "quadrilateral" | .tetrahedron => "tetrahedron"
  | .hexahedron => "hexahedron" | .prism => "prism" | .pyramid => "pyramid"
  | .pentatope => "pentatope" | .tesseract => "tesseract"

/-- `cell.topological_dimension()` of a named cell.
External; used at `finat/ufl/elementlist.py` 391. -/
def CellName.tdim : CellName → Nat
  | .vertex => 0 | .interval => 1 | .triangle => 2 | .quadrilateral => 2
  | .tetrahedron => 3 | .hexahedron => 3 | .prism => 3 | .pyramid => 3
  | .pentatope => 4 | .tesseract => 4

/-- A UFL cell: `Cell(name)` or `TensorProductCell(*cells)` (external).
External; used at `finat/ufl/elementlist.py` 24, 390-398. -/
inductive UCell where
  | named (n : CellName)
  | tensor (subs : List UCell)

mutual
/-- `cell.topological_dimension()`; for a product the sum over the factors.
External; used at `finat/ufl/elementlist.py` 391. -/
def UCell.tdim : UCell → Nat
  | .named n => n.tdim
  | .tensor cs => UCell.tdims cs
/-- The sum of the dimensions of a list of cells.
External; used at `finat/ufl/elementlist.py` 391. -/
def UCell.tdims : List UCell → Nat
  | [] => 0
  | c :: cs => c.tdim + UCell.tdims cs
end

/-- The `cellname` computed in `finat/ufl/elementlist.py` 391-399: the name of a
`Cell`, `None` for a product and when there is no cell. -/
def cellnameOf : Option UCell → Option CellName
  | some (.named n) => some n
  | _ => none

/-- The `tdim` computed in `finat/ufl/elementlist.py` 391-399. -/
def tdimOf : Option UCell → Option Nat := Option.map UCell.tdim

/-- A polynomial order: `None`, an integer or a tuple of integers.
Source: `finat/ufl/elementlist.py` 440-447. -/
inductive Order where
  | none
  | int (r : Int)
  | tuple (rs : List Int)
deriving DecidableEq, Repr

/-- `order - 1`, a `TypeError` unless the order is a number.
Source: `finat/ufl/elementlist.py` 282-294, 329-341. -/
def Order.pred : Order → Except Err Order
  | .int r => .ok (.int (r - 1))
  | _ => .error .typeError

/-- `(asarray(order) >= kmin).all()` for an order that is not `None`
(`finat/ufl/elementlist.py` 446). -/
def Order.allGe (k : Int) : Order → Bool
  | .none => false
  | .int r => k ≤ r
  | .tuple rs => rs.all (k ≤ ·)

/-- `(asarray(order) <= kmax).all()` for an order that is not `None`
(`finat/ufl/elementlist.py` 448). -/
def Order.allLe (k : Int) : Order → Bool
  | .none => false
  | .int r => r ≤ k
  | .tuple rs => rs.all (· ≤ k)

/-- The Sobolev spaces imported at `finat/ufl/elementlist.py` 25 (external). -/
inductive Sobolev where
  | h1 | h2 | l2 | hCurl | hDiv | hDivDiv | hCurlDiv | hEin | hInf
deriving DecidableEq, Repr

/-- The last argument of `register_element`: a tuple of cell names, or (for Hu-Zhang,
line 121, where the parentheses do not make a tuple) a bare string.
Source: `finat/ufl/elementlist.py` 36-45, 436. -/
inductive CellNames where
  | names (l : List String)
  | text (s : String)
deriving DecidableEq, Repr

/-- `pat in s` for Python strings: `pat` occurs as a contiguous part of `s`.
Source: `finat/ufl/elementlist.py` 436, 466. -/
def infixOf (pat s : String) : Bool := go s.toList
where
  /-- The search from each position on. -/
  go : List Char → Bool
    | [] => pat.toList.isEmpty
    | c :: cs => pat.toList.isPrefixOf (c :: cs) || go cs

/-- `cellname in cellnames` (`finat/ufl/elementlist.py` 437): membership in a tuple,
substring of a string. -/
def CellNames.contains (cs : CellNames) (c : String) : Bool :=
  match cs with
  | .names l => l.contains c
  | .text s => infixOf c s

/-- The tuple stored by `register_element` (`finat/ufl/elementlist.py` 36-47). -/
structure Entry where
  family : String
  shortName : Option String
  valueRank : Nat
  sobolev : Sobolev
  mapping : String
  kmin : Option Int
  kmax : Option Int
  cellnames : CellNames
deriving DecidableEq, Repr

/-- `simplices` (`finat/ufl/elementlist.py` 80). -/
def simplices : List String := ["interval", "triangle", "tetrahedron", "pentatope"]

/-- `cubes` (`finat/ufl/elementlist.py` 81). -/
def cubes : List String := ["interval", "quadrilateral", "hexahedron", "tesseract"]

/-- `any_cell` (`finat/ufl/elementlist.py` 82) without its entry `None`: a cell name
that is `None` is never looked up (line 437). -/
def anyCell : List String :=
  ["vertex"] ++ simplices ++ cubes.drop 1 ++ ["prism", "pyramid"]

/-- The calls of `register_element` in the order of `finat/ufl/elementlist.py` 86-262. -/
def registrations : List Entry := [
  ⟨"Lagrange", (some "CG"), 0, .h1, "identity", (some 1), none, .names anyCell⟩,
  ⟨"Brezzi-Douglas-Marini", (some "BDM"), 1, .hDiv, "contravariant Piola", (some 1), none, .names (simplices.drop 1)⟩,
  ⟨"Discontinuous Lagrange", (some "DG"), 0, .l2, "identity", (some 0), none, .names anyCell⟩,
  ⟨"Discontinuous Taylor", (some "TDG"), 0, .l2, "identity", (some 0), none, .names simplices⟩,
  ⟨"Nedelec 1st kind H(curl)", (some "N1curl"), 1, .hCurl, "covariant Piola", (some 1), none, .names (simplices.drop 1)⟩,
  ⟨"Nedelec 2nd kind H(curl)", (some "N2curl"), 1, .hCurl, "covariant Piola", (some 1), none, .names (simplices.drop 1)⟩,
  ⟨"Raviart-Thomas", (some "RT"), 1, .hDiv, "contravariant Piola", (some 1), none, .names (simplices.drop 1)⟩,
  ⟨"Brezzi-Douglas-Fortin-Marini", (some "BDFM"), 1, .hDiv, "contravariant Piola", (some 1), none, .names (simplices.drop 1)⟩,
  ⟨"Crouzeix-Raviart", (some "CR"), 0, .l2, "identity", (some 1), (some 1), .names (simplices.drop 1)⟩,
  ⟨"Discontinuous Raviart-Thomas", (some "DRT"), 1, .l2, "contravariant Piola", (some 1), none, .names (simplices.drop 1)⟩,
  ⟨"Kong-Mulder-Veldhuizen", (some "KMV"), 0, .h1, "identity", (some 1), none, .names (simplices.drop 1)⟩,
  ⟨"Regge", (some "Regge"), 2, .hEin, "double covariant Piola", (some 0), none, .names simplices⟩,
  ⟨"Hellan-Herrmann-Johnson", (some "HHJ"), 2, .hDivDiv, "double contravariant Piola", (some 0), none, .names ["triangle", "tetrahedron"]⟩,
  ⟨"Gopalakrishnan-Lederer-Schoberl 1st kind", (some "GLS"), 2, .hCurlDiv, "covariant contravariant Piola", (some 1), none, .names (simplices.drop 1)⟩,
  ⟨"Gopalakrishnan-Lederer-Schoberl 2nd kind", (some "GLS2"), 2, .hCurlDiv, "covariant contravariant Piola", (some 0), none, .names (simplices.drop 1)⟩,
  ⟨"Nonconforming Arnold-Winther", (some "AWnc"), 2, .hDiv, "double contravariant Piola", (some 2), (some 2), .names ["triangle"]⟩,
  ⟨"Conforming Arnold-Winther", (some "AWc"), 2, .hDiv, "double contravariant Piola", (some 3), none, .names ["triangle"]⟩,
  ⟨"Hu-Zhang", (some "HZ"), 2, .hDiv, "double contravariant Piola", (some 3), none, .text "triangle"⟩,
  ⟨"Bernardi-Raugel", (some "BR"), 1, .h1, "contravariant Piola", (some 1), none, .names (simplices.drop 1)⟩,
  ⟨"Bernardi-Raugel Bubble", (some "BRB"), 1, .h1, "contravariant Piola", none, none, .names (simplices.drop 1)⟩,
  ⟨"Mardal-Tai-Winther", (some "MTW"), 1, .h1, "contravariant Piola", (some 3), (some 3), .names ["triangle"]⟩,
  ⟨"Hermite", (some "HER"), 0, .h1, "custom", (some 3), (some 3), .names simplices⟩,
  ⟨"Argyris", (some "ARG"), 0, .h2, "custom", (some 5), none, .names ["triangle"]⟩,
  ⟨"Bell", (some "BELL"), 0, .h2, "custom", (some 5), (some 5), .names ["triangle"]⟩,
  ⟨"Morley", (some "MOR"), 0, .h2, "custom", (some 2), (some 2), .names ["triangle"]⟩,
  ⟨"QuadraticPowellSabin6", (some "PS6"), 0, .h2, "custom", (some 2), (some 2), .names ["triangle"]⟩,
  ⟨"QuadraticPowellSabin12", (some "PS12"), 0, .h2, "custom", (some 2), (some 2), .names ["triangle"]⟩,
  ⟨"Hsieh-Clough-Tocher", (some "HCT"), 0, .h2, "custom", (some 3), none, .names ["triangle"]⟩,
  ⟨"Reduced-Hsieh-Clough-Tocher", (some "HCT-red"), 0, .h2, "custom", (some 3), (some 3), .names ["triangle"]⟩,
  ⟨"Johnson-Mercier", (some "JM"), 2, .hDiv, "double contravariant Piola", (some 1), (some 1), .names (simplices.drop 1)⟩,
  ⟨"Arnold-Qin", (some "AQ"), 1, .h1, "identity", (some 2), (some 2), .names ["triangle"]⟩,
  ⟨"Reduced-Arnold-Qin", (some "AQ-red"), 1, .h1, "contravariant Piola", (some 2), (some 2), .names ["triangle"]⟩,
  ⟨"Christiansen-Hu", (some "CH"), 1, .h1, "contravariant Piola", (some 1), (some 1), .names (simplices.drop 1)⟩,
  ⟨"Alfeld-Sorokina", (some "AS"), 1, .h1, "contravariant Piola", (some 2), (some 2), .names (simplices.drop 1)⟩,
  ⟨"Guzman-Neilan 1st kind H1", (some "GN"), 1, .h1, "contravariant Piola", (some 1), none, .names (simplices.drop 1)⟩,
  ⟨"Guzman-Neilan 2nd kind H1", (some "GN2"), 1, .h1, "contravariant Piola", (some 1), none, .names (simplices.drop 1)⟩,
  ⟨"Guzman-Neilan H1(div)", (some "GNH1div"), 1, .h1, "contravariant Piola", (some 2), none, .names (simplices.drop 1)⟩,
  ⟨"Guzman-Neilan Bubble", (some "GNB"), 1, .h1, "contravariant Piola", none, none, .names (simplices.drop 1)⟩,
  ⟨"Boundary Quadrature", (some "BQ"), 0, .l2, "identity", (some 0), none, .names anyCell⟩,
  ⟨"Bubble", (some "B"), 0, .h1, "identity", (some 2), none, .names simplices⟩,
  ⟨"FacetBubble", (some "FB"), 0, .h1, "identity", (some 2), none, .names simplices⟩,
  ⟨"Quadrature", (some "Quadrature"), 0, .l2, "identity", (some 0), none, .names anyCell⟩,
  ⟨"Real", (some "R"), 0, .hInf, "identity", (some 0), (some 0), .names (anyCell ++ ["TensorProductCell"])⟩,
  ⟨"Undefined", (some "U"), 0, .l2, "identity", (some 0), none, .names anyCell⟩,
  ⟨"Radau", (some "Rad"), 0, .l2, "identity", (some 0), none, .names ["interval"]⟩,
  ⟨"HDiv Trace", (some "HDivT"), 0, .l2, "identity", (some 0), none, .names anyCell⟩,
  ⟨"Gauss-Legendre", (some "GL"), 0, .l2, "identity", (some 0), none, .names ["interval"]⟩,
  ⟨"Gauss-Lobatto-Legendre", (some "GLL"), 0, .h1, "identity", (some 1), none, .names ["interval"]⟩,
  ⟨"Bernstein", none, 0, .h1, "identity", (some 1), none, .names simplices⟩,
  ⟨"Q", none, 0, .h1, "identity", (some 1), none, .names cubes⟩,
  ⟨"DQ", none, 0, .l2, "identity", (some 0), none, .names cubes⟩,
  ⟨"RTCE", none, 1, .hCurl, "covariant Piola", (some 1), none, .names ["quadrilateral"]⟩,
  ⟨"RTCF", none, 1, .hDiv, "contravariant Piola", (some 1), none, .names ["quadrilateral"]⟩,
  ⟨"NCE", none, 1, .hCurl, "covariant Piola", (some 1), none, .names ["hexahedron"]⟩,
  ⟨"NCF", none, 1, .hDiv, "contravariant Piola", (some 1), none, .names ["hexahedron"]⟩,
  ⟨"S", none, 0, .h1, "identity", (some 1), none, .names cubes⟩,
  ⟨"DPC", none, 0, .l2, "identity", (some 0), none, .names cubes⟩,
  ⟨"BDMCE", none, 1, .hCurl, "covariant Piola", (some 1), none, .names ["quadrilateral"]⟩,
  ⟨"BDMCF", none, 1, .hDiv, "contravariant Piola", (some 1), none, .names ["quadrilateral"]⟩,
  ⟨"SminusE", (some "SminusE"), 1, .hCurl, "covariant Piola", (some 1), none, .names ((cubes.drop 1).take 2)⟩,
  ⟨"SminusF", (some "SminusF"), 1, .hDiv, "contravariant Piola", (some 1), none, .names ((cubes.drop 1).take 1)⟩,
  ⟨"SminusDiv", (some "SminusDiv"), 1, .hDiv, "contravariant Piola", (some 1), none, .names ((cubes.drop 1).take 2)⟩,
  ⟨"SminusCurl", (some "SminusCurl"), 1, .hCurl, "covariant Piola", (some 1), none, .names ((cubes.drop 1).take 2)⟩,
  ⟨"AAE", none, 1, .hCurl, "covariant Piola", (some 1), none, .names ["hexahedron"]⟩,
  ⟨"AAF", none, 1, .hDiv, "contravariant Piola", (some 1), none, .names ["hexahedron"]⟩,
  ⟨"DPC L2", none, 0, .l2, "L2 Piola", (some 1), none, .names cubes⟩,
  ⟨"DQ L2", none, 0, .l2, "L2 Piola", (some 0), none, .names cubes⟩,
  ⟨"Gauss-Legendre L2", (some "GL L2"), 0, .l2, "L2 Piola", (some 0), none, .names ["interval"]⟩,
  ⟨"Discontinuous Lagrange L2", (some "DG L2"), 0, .l2, "L2 Piola", (some 0), none, .names anyCell⟩,
  ⟨"Extended-Gauss-Legendre", (some "EGL"), 0, .h1, "identity", (some 2), none, .names ["interval"]⟩,
  ⟨"Extended-Gauss-Legendre Edge", (some "EGL-Edge"), 0, .l2, "identity", (some 1), none, .names ["interval"]⟩,
  ⟨"Extended-Gauss-Legendre Edge L2", (some "EGL-Edge L2"), 0, .l2, "L2 Piola", (some 1), none, .names ["interval"]⟩,
  ⟨"Gauss-Lobatto-Legendre Edge", (some "GLL-Edge"), 0, .l2, "identity", (some 0), none, .names ["interval"]⟩,
  ⟨"Gauss-Lobatto-Legendre Edge L2", (some "GLL-Edge L2"), 0, .l2, "L2 Piola", (some 0), none, .names ["interval"]⟩,
  ⟨"Direct Serendipity", (some "Sdirect"), 0, .h1, "physical", (some 1), none, .names ["quadrilateral"]⟩,
  ⟨"Direct Serendipity Full H(div)", (some "Sdirect H(div)"), 1, .hDiv, "physical", (some 1), none, .names ["quadrilateral"]⟩,
  ⟨"Direct Serendipity Reduced H(div)", (some "Sdirect H(div) red"), 1, .hDiv, "physical", (some 1), none, .names ["quadrilateral"]⟩
]

/-- `register_element` (`finat/ufl/elementlist.py` 36-47): the data is stored under
the family name and under the short name. -/
def registerElement (d : Dict String Entry) (e : Entry) : Except Err (Dict String Entry) :=
  if (d.get? e.family).isSome then .error .valueError
  else
    let d := d.set e.family e
    match e.shortName with
    | none => .ok d
    | some s => .ok (d.set s e)

/-- All registrations, from an empty dictionary (`finat/ufl/elementlist.py` 29, 86-262). -/
def registerAll (d : Dict String Entry) : List Entry → Except Err (Dict String Entry)
  | [] => .ok d
  | e :: es => do registerAll (← registerElement d e) es

/-- `ufl_elements` after the module has been loaded.
Source: `finat/ufl/elementlist.py` 29, 41-45, 86-262. -/
def uflElements : Dict String Entry :=
  match registerAll [] registrations with
  | .ok d => d
  | .error _ => []

/-- What a registered alias does: rename the family and keep the order, or call
`feec_element` or `feec_element_l2` (`finat/ufl/elementlist.py` 48-50). -/
inductive AliasRule where
  | to (family : String)
  | feec
  | feecL2
deriving DecidableEq, Repr

/-- The calls of `register_alias` (`finat/ufl/elementlist.py` 158-376). -/
def aliases : Dict String AliasRule := [
  ("Lobatto", .to "Gauss-Lobatto-Legendre"),
  ("Lob", .to "Gauss-Lobatto-Legendre"),
  ("Nedelec 1st kind H(div)", .to "Raviart-Thomas"),
  ("N1div", .to "Raviart-Thomas"),
  ("Nedelec 2nd kind H(div)", .to "Brezzi-Douglas-Marini"),
  ("N2div", .to "Brezzi-Douglas-Marini"),
  ("Discontinuous Lagrange Trace", .to "HDiv Trace"),
  ("DGT", .to "HDiv Trace"),
  ("P", .to "Lagrange"),
  ("DP", .to "Discontinuous Lagrange"),
  ("RTE", .to "Nedelec 1st kind H(curl)"),
  ("RTF", .to "Raviart-Thomas"),
  ("N1E", .to "Nedelec 1st kind H(curl)"),
  ("N1F", .to "Raviart-Thomas"),
  ("BDME", .to "Nedelec 2nd kind H(curl)"),
  ("BDMF", .to "Brezzi-Douglas-Marini"),
  ("N2E", .to "Nedelec 2nd kind H(curl)"),
  ("N2F", .to "Brezzi-Douglas-Marini"),
  ("DP L2", .to "Discontinuous Lagrange L2"),
  ("P- Lambda L2", .feecL2),
  ("P Lambda L2", .feecL2),
  ("Q- Lambda L2", .feecL2),
  ("S Lambda L2", .feecL2),
  ("P- L2", .feecL2),
  ("Q- L2", .feecL2),
  ("P- Lambda", .feec),
  ("P Lambda", .feec),
  ("Q- Lambda", .feec),
  ("S Lambda", .feec),
  ("P-", .feec),
  ("Q-", .feec)
]

/-- Indexing a Python tuple: negative indices count from the end.
Source: `finat/ufl/elementlist.py` 310, 357. -/
def pyIndex {α : Type} (l : List α) (i : Int) : Except Err α :=
  let j := if i < 0 then i + l.length else i
  if j < 0 then .error .indexError
  else match l[j.toNat]? with
    | some x => .ok x
    | none => .error .indexError

/-- The families of one row `_feec_elements[family]` (`finat/ufl/elementlist.py`
281-309): for each dimension and form degree the family and whether the order is
lowered by one. `top` is the family of the forms of highest degree. -/
def feecRows (cont e2 e3 f3 top : String) (lower : Bool) : List (List (String × Bool)) :=
  [[(cont, false), (top, lower)],
   [(cont, false), (e2, false), (top, lower)],
   [(cont, false), (e3, false), (f3, false), (top, lower)]]

/-- `_feec_elements` in `feec_element` (`finat/ufl/elementlist.py` 281-309). -/
def feecTable : Dict String (List (List (String × Bool))) :=
  let pm := feecRows "P" "RTE" "N1E" "N1F" "DP" true
  let p := feecRows "P" "BDME" "N2E" "N2F" "DP" false
  let qm := feecRows "Q" "RTCE" "NCE" "NCF" "DQ" true
  let s := feecRows "S" "BDMCE" "AAE" "AAF" "DPC" false
  [("P- Lambda", pm), ("P Lambda", p), ("Q- Lambda", qm), ("S Lambda", s),
   ("P-", pm), ("P", p), ("Q-", qm), ("S", s)]

/-- `_feec_elements` in `feec_element_l2` (`finat/ufl/elementlist.py` 328-356). -/
def feecTableL2 : Dict String (List (List (String × Bool))) :=
  let pm := feecRows "P" "RTE" "N1E" "N1F" "DP L2" true
  let p := feecRows "P" "BDME" "N2E" "N2F" "DP L2" false
  let qm := feecRows "Q" "RTCE" "NCE" "NCF" "DQ L2" true
  let s := feecRows "S" "BDMCE" "AAE" "AAF" "DPC L2" false
  [("P- Lambda L2", pm), ("P Lambda L2", p), ("Q- Lambda L2", qm), ("S Lambda L2", s),
   ("P- L2", pm), ("P L2", p), ("Q- L2", qm), ("S L2", s)]

/-- `feec_element` and `feec_element_l2` (`finat/ufl/elementlist.py` 268-312, 315-359).
The table is built with `r - 1` before it is indexed, so an order that is not a
number is a `TypeError`; so are a missing dimension and a missing form degree. -/
def feecElement (table : Dict String (List (List (String × Bool)))) (family : String)
    (n : Option Nat) (r : Order) (k : Option Int) : Except Err (String × Order) := do
  let low ← r.pred
  let rows ← table.get family
  match n, k with
  | some n, some k =>
    let row ← pyIndex rows ((n : Int) - 1)
    let (f, lower) ← pyIndex row k
    .ok (f, if lower then low else r)
  | some n, none => do
    let _ ← pyIndex rows ((n : Int) - 1)
    .error .typeError
  | none, _ => .error .typeError

/-- `aliases[family](family, tdim, order, form_degree)` (`finat/ufl/elementlist.py`
158-376, 416). -/
def applyAlias (rule : AliasRule) (family : String) (n : Nat) (r : Order) (k : Option Int) :
    Except Err (String × Order) :=
  match rule with
  | .to f => .ok (f, r)
  | .feec => feecElement feecTable family (some n) r k
  | .feecL2 => feecElement feecTableL2 family (some n) r k

/-- One iteration of the loop at `finat/ufl/elementlist.py` 412-416: nothing when the
family is not an alias. -/
def aliasStep (tdim : Option Nat) (k : Option Int) (s : String × Order) :
    Option (Except Err (String × Order)) :=
  match aliases.get? s.1 with
  | none => none
  | some rule => some (match tdim with
    | none => .error .valueError
    | some n => applyAlias rule s.1 n s.2 k)

/-- How many times a name can still be rewritten: used to show that the loop ends.
Source: `finat/ufl/elementlist.py` 408-411. -/
def aliasRank (family : String) : Nat :=
  match aliases.get? family with
  | none => 0
  | some (.to _) => 1
  | some .feec => 2
  | some .feecL2 => 2

/-- A Python index yields an entry of the tuple. -/
theorem pyIndex_mem {α : Type} {l : List α} {i : Int} {x : α} (h : pyIndex l i = .ok x) :
    x ∈ l := by
  unfold pyIndex at h
  revert h
  generalize (if i < 0 then i + (l.length : Int) else i) = j
  intro h
  dsimp only at h
  by_cases hj : j < 0
  · rw [if_pos hj] at h; cases h
  · rw [if_neg hj] at h
    cases hy : l[j.toNat]? with
    | none => rw [hy] at h; cases h
    | some y => rw [hy] at h; cases h; exact List.mem_of_getElem? hy

theorem get?_mem {κ ν : Type} [DecidableEq κ] {d : Dict κ ν} {k : κ} {v : ν}
    (h : d.get? k = some v) : (k, v) ∈ d := by
  induction d with
  | nil => cases h
  | cons p t ih =>
    obtain ⟨k', v'⟩ := p
    unfold Dict.get? at h
    split at h
    · next e => cases h; subst e; exact List.mem_cons_self
    · exact List.mem_cons_of_mem _ (ih h)

theorem get_mem {κ ν : Type} [DecidableEq κ] {d : Dict κ ν} {k : κ} {v : ν}
    (h : d.get k = .ok v) : (k, v) ∈ d := by
  unfold Dict.get at h
  split at h
  · next hv => cases h; exact get?_mem hv
  · cases h

/-- The family returned by the exterior calculus tables is one of their entries. -/
theorem feecElement_mem {table : Dict String (List (List (String × Bool)))} {family : String}
    {n : Option Nat} {r : Order} {k : Option Int} {s : String × Order}
    (h : feecElement table family n r k = .ok s) :
    ∃ p ∈ table, ∃ row ∈ p.2, ∃ q ∈ row, q.1 = s.1 := by
  unfold feecElement at h
  cases hl : r.pred with
  | error e => rw [hl] at h; cases h
  | ok low =>
    rw [hl] at h
    cases hr : table.get family with
    | error e => simp only [bind, Except.bind, hr] at h; cases h
    | ok rows =>
      simp only [bind, Except.bind, hr] at h
      cases n with
      | none => cases h
      | some n =>
        cases k with
        | none =>
          simp only at h
          split at h <;> cases h
        | some k =>
          simp only at h
          cases hrow : pyIndex rows ((n : Int) - 1) with
          | error e => rw [hrow] at h; cases h
          | ok row =>
            rw [hrow] at h
            simp only at h
            cases hq : pyIndex row k with
            | error e => rw [hq] at h; cases h
            | ok q =>
              rw [hq] at h
              simp only at h
              cases h
              exact ⟨_, get_mem hr, row, pyIndex_mem hrow, q, pyIndex_mem hq, rfl⟩

/-- A renaming alias leads to a name that is not an alias, the exterior calculus
tables lead at most to renaming aliases. -/
theorem aliasStep_rank {tdim : Option Nat} {k : Option Int} {s s' : String × Order}
    (h : aliasStep tdim k s = some (.ok s')) : aliasRank s'.1 < aliasRank s.1 := by
  have hto : ∀ p ∈ aliases, ∀ f, p.2 = .to f → aliasRank f = 0 := by
    have : ∀ p ∈ aliases, (match p.2 with | .to f => aliasRank f == 0 | _ => true) = true := by
      decide +kernel
    intro p hp f hf
    have := this p hp
    rw [hf] at this
    simpa using this
  have hf : ∀ p ∈ feecTable, ∀ row ∈ p.2, ∀ q ∈ row, aliasRank q.1 < 2 := by decide +kernel
  have hf2 : ∀ p ∈ feecTableL2, ∀ row ∈ p.2, ∀ q ∈ row, aliasRank q.1 < 2 := by decide +kernel
  unfold aliasStep at h
  cases hr : aliases.get? s.1 with
  | none => rw [hr] at h; cases h
  | some rule =>
    rw [hr] at h
    cases tdim with
    | none => cases h
    | some n =>
      simp only [Option.some.injEq] at h
      cases rule with
      | to f =>
        cases h
        have := hto _ (get?_mem hr) f rfl
        simp [aliasRank, hr] at this ⊢
        simp [this]
      | feec =>
        obtain ⟨p, hp, row, hrow, q, hq, e⟩ := feecElement_mem h
        have := hf p hp row hrow q hq
        rw [e] at this
        have h2 : aliasRank s.1 = 2 := by simp [aliasRank, hr]
        omega
      | feecL2 =>
        obtain ⟨p, hp, row, hrow, q, hq, e⟩ := feecElement_mem h
        have := hf2 p hp row hrow q hq
        rw [e] at this
        have h2 : aliasRank s.1 = 2 := by simp [aliasRank, hr]
        omega

/-- The loop at `finat/ufl/elementlist.py` 412-416.  Lean accepts the recursion because
`aliasRank` decreases. -/
def resolve (tdim : Option Nat) (k : Option Int) (s : String × Order) :
    Except Err (String × Order) :=
  match _h : aliasStep tdim k s with
  | none => .ok s
  | some (.error e) => .error e
  | some (.ok s') => resolve tdim k s'
termination_by aliasRank s.1
decreasing_by exact aliasStep_rank (by assumption)

/-- The result of `canonical_element_description` (`finat/ufl/elementlist.py` 468). -/
structure Desc where
  family : String
  shortName : Option String
  order : Order
  shape : List Nat
  sobolev : Sobolev
  mapping : String
  embedded : Order
deriving DecidableEq, Repr

/-- Lines 404-409 of `finat/ufl/elementlist.py`: the names "P", "S", "P L2" and "S L2"
with a form degree. -/
def catchFeec (tdim : Option Nat) (k : Option Int) (s : String × Order) :
    Except Err (String × Order) := do
  let s ← (if k.isSome && (s.1 == "P" || s.1 == "S")
    then feecElement feecTable s.1 tdim s.2 k else .ok s)
  if k.isSome && (s.1 == "P L2" || s.1 == "S L2")
    then feecElement feecTableL2 s.1 tdim s.2 k else .ok s

/-- `cellname in set(cubes) - set(simplices) or isinstance(cell, TensorProductCell)`
(`finat/ufl/elementlist.py` 424). -/
def isCubeLike : Option UCell → Bool
  | some (.named n) => cubes.contains n.str && !simplices.contains n.str
  | some (.tensor _) => true
  | none => false

/-- Lines 424-434 of `finat/ufl/elementlist.py`: Lagrange families on cube-like cells.
The comparison `order >= 1`, made for a warning, is a `TypeError` unless the order is a
number. -/
def cubeFamily (cell : Option UCell) (family : String) (order : Order) : Except Err String :=
  if isCubeLike cell then
    if family = "Lagrange" then .ok "Q"
    else if family = "Discontinuous Lagrange" then
      match order with
      | .int _ => .ok "DQ"
      | _ => .error .typeError
    else if family = "Discontinuous Lagrange L2" then
      match order with
      | .int _ => .ok "DQ L2"
      | _ => .error .typeError
    else .ok family
  else .ok family

/-- The test of lines 437-438 of `finat/ufl/elementlist.py`. -/
def cellAllowed (cell : Option UCell) (cs : CellNames) : Bool :=
  match cellnameOf cell with
  | none => true
  | some n => cs.contains n.str

/-- The tests of lines 441-449 of `finat/ufl/elementlist.py` (`krange` is never `None`
in the table). -/
def orderAllowed (order : Order) (kmin kmax : Option Int) : Bool :=
  match order with
  | .none => true
  | o => (match kmin with | none => true | some k => o.allGe k) &&
         (match kmax with | none => true | some k => o.allLe k)

/-- Lines 451-463 of `finat/ufl/elementlist.py`: the reference value shape from the
value rank. -/
def shapeOf (tdim : Option Nat) : Nat → Except Err (List Nat)
  | 2 => match tdim with
    | none => .error .valueError
    | some n => .ok [n, n]
  | 1 => match tdim with
    | none => .error .valueError
    | some n => .ok [n]
  | 0 => .ok []
  | _ => .error .valueError

/-- Lines 465-467 of `finat/ufl/elementlist.py`. -/
def embeddedOf (tdim : Option Nat) (family : String) (order : Order) : Order :=
  if infixOf "Guzman-Neilan" family || infixOf "Bernardi-Raugel" family then
    match tdim with
    | none => .none
    | some n => .int n
  else order

/-- `canonical_element_description` from line 419 on (`finat/ufl/elementlist.py` 419-468):
look up the family and check the data. -/
def describe (cell : Option UCell) (s : String × Order) : Except Err Desc :=
  match uflElements.get? s.1 with
  | none => .error .valueError
  | some e => do
    let family ← cubeFamily cell e.family s.2
    if !cellAllowed cell e.cellnames then .error .valueError
    else if !orderAllowed s.2 e.kmin e.kmax then .error .valueError
    else
      let shape ← shapeOf (tdimOf cell) e.valueRank
      .ok ⟨family, e.shortName, s.2, shape, e.sobolev, e.mapping,
        embeddedOf (tdimOf cell) family s.2⟩

/-- `canonical_element_description` (`finat/ufl/elementlist.py` 379-468). -/
def canonicalElementDescription (family : String) (cell : Option UCell) (order : Order)
    (formDegree : Option Int) : Except Err Desc := do
  let s ← catchFeec (tdimOf cell) formDegree (family, order)
  let s ← resolve (tdimOf cell) formDegree s
  describe cell s

end FInAT.Ufl
