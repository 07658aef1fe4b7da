import Verif.Model.Ufl.ElementList

/-!
# UFL element trees

Model of the element classes of `finat/ufl`: `FiniteElement`, `MixedElement`,
`VectorElement`, `TensorElement`, `TensorProductElement`, `EnrichedElement`,
`NodalEnrichedElement`, `HDivElement`, `HCurlElement`, `WithMapping`,
`RestrictedElement` and `BrokenElement`.

An element is a node with the data that its constructor stores (`Base`) and its
arguments.  Constructors are functions that return an exception or an element.
The short name of a `FiniteElement`, used for printing only, is not stored, and Sobolev
spaces of composed elements are modelled separately (`Verif/Model/Ufl/Sobolev.lean`).
-/

namespace FInAT.Ufl

mutual
/-- Equality of cells (external, `ufl.cell`): same name, or equal factors.
External; used at `finat/ufl/mixedelement.py` 49; `finat/ufl/enrichedelement.py` 25. -/
def UCell.beq : UCell → UCell → Bool
  | .named a, .named b => a == b
  | .tensor as, .tensor bs => UCell.beqs as bs
  | _, _ => false
/-- Equality of lists of cells.
External; used at `finat/ufl/mixedelement.py` 49; `finat/ufl/enrichedelement.py` 25. -/
def UCell.beqs : List UCell → List UCell → Bool
  | [], [] => true
  | a :: as, b :: bs => a.beq b && UCell.beqs as bs
  | _, _ => false
end

mutual
theorem UCell.eq_of_beq : ∀ {a b : UCell}, a.beq b = true → a = b
  | .named a, .named b, h => by
    simp only [UCell.beq, beq_iff_eq] at h; rw [h]
  | .tensor as, .tensor bs, h => by
    simp only [UCell.beq] at h; rw [UCell.eqs_of_beqs h]
  | .named _, .tensor _, h => by simp [UCell.beq] at h
  | .tensor _, .named _, h => by simp [UCell.beq] at h
theorem UCell.eqs_of_beqs : ∀ {as bs : List UCell}, UCell.beqs as bs = true → as = bs
  | [], [], _ => rfl
  | a :: as, b :: bs, h => by
    simp only [UCell.beqs, Bool.and_eq_true] at h
    rw [UCell.eq_of_beq h.1, UCell.eqs_of_beqs h.2]
  | [], _ :: _, h => by simp [UCell.beqs] at h
  | _ :: _, [], h => by simp [UCell.beqs] at h
end

mutual
theorem UCell.beq_refl : ∀ a : UCell, a.beq a = true
  | .named a => by simp [UCell.beq]
  | .tensor as => by simp [UCell.beq, UCell.beqs_refl as]
theorem UCell.beqs_refl : ∀ as : List UCell, UCell.beqs as as = true
  | [] => rfl
  | a :: as => by simp [UCell.beqs, UCell.beq_refl a, UCell.beqs_refl as]
end

instance : DecidableEq UCell := fun a b =>
  if h : a.beq b = true then .isTrue (UCell.eq_of_beq h)
  else .isFalse (fun e => h (e ▸ UCell.beq_refl a))

/-- The degree of an element: `None`, an integer, or the tuple of the degrees of the
factors of a product (`finat/ufl/tensorproductelement.py` 50-51). -/
inductive Deg where
  | none
  | int (r : Int)
  | tuple (ds : List Deg)

/-- The degree of a `FiniteElement`.
Source: `finat/ufl/finiteelement.py` 160-161. -/
def Order.toDeg : Order → Deg
  | .none => .none
  | .int r => .int r
  | .tuple rs => .tuple (rs.map .int)

mutual
/-- `a == b` for degrees.
Source: `finat/ufl/mixedelement.py` 71. -/
def Deg.beq : Deg → Deg → Bool
  | .none, .none => true
  | .int a, .int b => a == b
  | .tuple as, .tuple bs => Deg.beqs as bs
  | _, _ => false
/-- `a == b` for tuples of degrees.
Source: `finat/ufl/mixedelement.py` 71. -/
def Deg.beqs : List Deg → List Deg → Bool
  | [], [] => true
  | a :: as, b :: bs => a.beq b && Deg.beqs as bs
  | _, _ => false
end

mutual
/-- `a < b` for degrees: numbers, or tuples lexicographically; `TypeError` otherwise.
Source: `finat/ufl/tensorproductelement.py` 138. -/
def Deg.lt : Deg → Deg → Except Err Bool
  | .int a, .int b => .ok (a < b)
  | .tuple as, .tuple bs => Deg.lts as bs
  | _, _ => .error .typeError
/-- `a < b` for tuples of degrees.
Source: `finat/ufl/tensorproductelement.py` 138. -/
def Deg.lts : List Deg → List Deg → Except Err Bool
  | [], [] => .ok false
  | [], _ :: _ => .ok true
  | _ :: _, [] => .ok false
  | a :: as, b :: bs => if a.beq b then Deg.lts as bs else a.lt b
end

/-- The loop of Python's `min` after the first item.
Source: `finat/ufl/mixedelement.py` 239; `finat/ufl/tensorproductelement.py` 138. -/
def pyMinFrom (m : Deg) : List Deg → Except Err Deg
  | [] => .ok m
  | x :: xs => do
    let b ← x.lt m
    pyMinFrom (if b then x else m) xs

/-- Python's `min`; `ValueError` for nothing.
Source: `finat/ufl/mixedelement.py` 239; `finat/ufl/tensorproductelement.py` 138. -/
def pyMin : List Deg → Except Err Deg
  | [] => .error .valueError
  | x :: xs => pyMinFrom x xs

/-- The loop of Python's `max` after the first item.
Source: `finat/ufl/mixedelement.py` 244. -/
def pyMaxFrom (m : Deg) : List Deg → Except Err Deg
  | [] => .ok m
  | x :: xs => do
    let b ← m.lt x
    pyMaxFrom (if b then x else m) xs

/-- Python's `max`; `ValueError` for nothing.
Source: `finat/ufl/mixedelement.py` 244. -/
def pyMax : List Deg → Except Err Deg
  | [] => .error .valueError
  | x :: xs => pyMaxFrom x xs

/-- Python's `sum` of degrees: `TypeError` unless all are numbers.
Source: `finat/ufl/tensorproductelement.py` 133. -/
def pySum : List Deg → Except Err Deg
  | [] => .ok (.int 0)
  | x :: xs => do
    match x, ← pySum xs with
    | .int a, .int b => .ok (.int (a + b))
    | _, _ => .error .typeError

/-- The integers of a tuple; `TypeError` if it holds anything else.
External; used at `finat/ufl/mixedelement.py` 72. -/
def asInts : List Deg → Except Err (List Int)
  | [] => .ok []
  | .int a :: ds => do .ok (a :: (← asInts ds))
  | _ :: _ => .error .typeError

/-- `numpy.maximum` of two degrees with broadcasting of numbers (and of tuples of length
one); nested tuples are rejected when they are converted back to integers.
External; used at `finat/ufl/mixedelement.py` 72. -/
def npMaximum : Deg → Deg → Except Err Deg
  | .int a, .int b => .ok (.int (max a b))
  | .int a, .tuple ds => do .ok (.tuple ((← asInts ds).map (fun b => .int (max a b))))
  | .tuple ds, .int b => do .ok (.tuple ((← asInts ds).map (fun a => .int (max a b))))
  | .tuple ds, .tuple es => do
    let as ← asInts ds
    let bs ← asInts es
    match as, bs with
    | [a], bs => .ok (.tuple (bs.map (fun b => .int (max a b))))
    | as, [b] => .ok (.tuple (as.map (fun a => .int (max a b))))
    | as, bs =>
      if as.length = bs.length then
        .ok (.tuple (List.zipWith (fun a b => .int (max a b)) as bs))
      else .error .valueError
  | _, _ => .error .typeError

/-- The fold of `max_degree` (external, `ufl.utils.sequences`).
External; used at `finat/ufl/mixedelement.py` 72. -/
def maxDegreeFrom (m : Deg) : List Deg → Except Err Deg
  | [] => match m with
    | .tuple ds => do let _ ← asInts ds; .ok m
    | m => .ok m
  | x :: xs => do maxDegreeFrom (← npMaximum m x) xs

/-- A degree is `None`.
Source: `finat/ufl/mixedelement.py` 71. -/
def Deg.isNone : Deg → Bool
  | .none => true
  | _ => false

/-- The degree of a mixed element: `max_degree` of the degrees that are given
(`finat/ufl/mixedelement.py` 70-71). -/
def mixedDegree (ds : List Deg) : Except Err Deg :=
  match ds.filter (fun d => !d.isNone) with
  | [] => .ok .none
  | d :: ds => maxDegreeFrom d ds

/-- The columns of a list of rows, as many as the shortest row has (`zip(*rows)`).
External; used at `finat/ufl/enrichedelement.py` 28-32. -/
def pyZip : List (List Deg) → List (List Deg)
  | [] => []
  | [r] => r.map (fun x => [x])
  | r :: rs => List.zipWith (fun x c => x :: c) r (pyZip rs)

/-- The tuples behind degrees; `TypeError` for anything else.
Source: `finat/ufl/enrichedelement.py` 28-32. -/
def asTuples : List Deg → Except Err (List (List Deg))
  | [] => .ok []
  | .tuple ds :: es => do .ok (ds :: (← asTuples es))
  | _ :: _ => .error .typeError

/-- `pyMax` of every column.
Source: `finat/ufl/enrichedelement.py` 28-32. -/
def maxColumns : List (List Deg) → Except Err (List Deg)
  | [] => .ok []
  | c :: cs => do
    let m ← pyMax c
    .ok (m :: (← maxColumns cs))

/-- The degree of an enriched element (`finat/ufl/enrichedelement.py` 27-31). -/
def enrichedDegree (ds : List Deg) : Except Err Deg :=
  match ds with
  | .int _ :: _ =>
    match ds.filter (fun d => !d.isNone) with
    | [] => .ok .none
    | ds => pyMax ds
  | ds => do .ok (.tuple (← maxColumns (pyZip (← asTuples ds))))

/-- What `FiniteElementBase.__init__` stores (`finat/ufl/finiteelementbase.py` 30-47). -/
structure Base where
  family : String
  cell : Option UCell
  degree : Deg
  quadScheme : Option String
  shape : List Nat

/-- A symmetry dictionary of a tensor element.
Source: `finat/ufl/mixedelement.py` 388-398. -/
abbrev Symmetry := Dict (List Nat) (List Nat)

/-- UFL elements: the stored data, then the arguments of the constructor.
Source: `finat/ufl/finiteelementbase.py` 43-47; `finat/ufl/mixedelement.py` 29-74, 279-324,
366-455; `finat/ufl/tensorproductelement.py` 32-64; `finat/ufl/enrichedelement.py` 20-55. -/
inductive UElem where
  /-- `FiniteElement` -/
  | fe (b : Base) (order : Order) (sobolev : Sobolev) (mapping : String)
      (variant : Option String) (embedded : Order)
  /-- `MixedElement` -/
  | mixed (b : Base) (subs : List UElem)
  /-- `VectorElement`; `reprVariant` is the variant printed in its `repr` -/
  | vector (b : Base) (sub : UElem) (dim : Nat) (reprVariant : Option String)
  /-- `TensorElement`: `number` is `_sub_element_mapping`, `count` the number of
  sub-elements -/
  | tensor (b : Base) (sub : UElem) (shape : List Nat) (symmetry : Symmetry)
      (number : Dict (List Nat) Nat) (count : Nat) (mapping : String)
      (reprVariant : Option String)
  /-- `TensorProductElement` -/
  | product (b : Base) (subs : List UElem)
  /-- `EnrichedElement`, or `NodalEnrichedElement` when `nodal` -/
  | enriched (b : Base) (nodal : Bool) (subs : List UElem)
  /-- `HDivElement` -/
  | hdiv (b : Base) (sub : UElem)
  /-- `HCurlElement` -/
  | hcurl (b : Base) (sub : UElem)
  /-- `WithMapping`, which stores no data of its own -/
  | withMapping (sub : UElem) (mapping : String)
  /-- `RestrictedElement` -/
  | restricted (b : Base) (sub : UElem) (domain : String)
  /-- `BrokenElement` -/
  | broken (b : Base) (sub : UElem)

namespace UElem

/-- The stored data; `WithMapping` reaches through to the wrapped element
(`finat/ufl/hdivcurl.py` 171-177). -/
def base : UElem → Base
  | fe b .. => b
  | mixed b _ => b
  | vector b .. => b
  | tensor b .. => b
  | product b _ => b
  | enriched b .. => b
  | hdiv b _ => b
  | hcurl b _ => b
  | withMapping e _ => e.base
  | restricted b .. => b
  | broken b _ => b

/-- `e.cell` (`finat/ufl/finiteelementbase.py` 115-118). -/
def cell (e : UElem) : Option UCell := e.base.cell

/-- `e.degree()` (`finat/ufl/finiteelementbase.py` 107-109). -/
def degree (e : UElem) : Deg := e.base.degree

/-- `e.quadrature_scheme()` (`finat/ufl/finiteelementbase.py` 111-113). -/
def quadScheme (e : UElem) : Option String := e.base.quadScheme

/-- `e.family()` (`finat/ufl/finiteelementbase.py` 99-101). -/
def family (e : UElem) : String := e.base.family

/-- The single value of a non-empty list of equal variants, `None` otherwise
(`finat/ufl/mixedelement.py` 250-256). -/
def commonVariant (vs : List (Option String)) : Option String :=
  match vs with
  | [] => none
  | v :: vs => if vs.all (· == v) then v else none

mutual
/-- `e.variant()`: of the wrapped element (`finat/ufl/hdivcurl.py` 73-75, 132-134, 224-226,
`restrictedelement.py` 111-113, `mixedelement.py` 335-337, 481-483), the common one of the parts
(`mixedelement.py` 250, `tensorproductelement.py` 112, `enrichedelement.py` 80);
`BrokenElement` inherits `None` (`finiteelementbase.py` 103-105). -/
def variant : UElem → Option String
  | fe _ _ _ _ v _ => v
  | mixed _ subs => commonVariant (variants subs)
  | vector _ e _ _ => e.variant
  | tensor _ e _ _ _ _ _ _ => e.variant
  | product _ subs => commonVariant (variants subs)
  | enriched _ _ subs => commonVariant (variants subs)
  | hdiv _ e => e.variant
  | hcurl _ e => e.variant
  | withMapping e _ => e.variant
  | restricted _ e _ => e.variant
  | broken _ _ => none
/-- The variants of a list of elements.
Source: `finat/ufl/mixedelement.py` 253; `finat/ufl/tensorproductelement.py` 115;
`finat/ufl/enrichedelement.py` 83. -/
def variants : List UElem → List (Option String)
  | [] => []
  | e :: es => e.variant :: variants es
end

/-- Whether all are equal to the given mapping.
Source: `finat/ufl/mixedelement.py` 123; `finat/ufl/tensorproductelement.py` 72-74. -/
def allAre (m : String) (ms : List String) : Bool := ms.all (· == m)

mutual
/-- `e.mapping()` (`finat/ufl/mixedelement.py` 121, 339, 485, `tensorproductelement.py` 70,
`enrichedelement.py` 57, `hdivcurl.py` 60, 119, 206, `restrictedelement.py` 63,
`brokenelement.py` 34). An enriched element of nothing does not exist. -/
def mapping : UElem → String
  | fe _ _ _ m _ _ => m
  | mixed _ subs => if allAre "identity" (mappings subs) then "identity" else "undefined"
  | vector _ e _ _ => e.mapping
  | tensor _ _ _ _ _ _ m _ => m
  | product _ subs =>
    if allAre "identity" (mappings subs) then "identity"
    else if allAre "L2 Piola" (mappings subs) then "L2 Piola" else "undefined"
  | enriched _ _ subs => (mappings subs).headD "undefined"
  | hdiv _ _ => "contravariant Piola"
  | hcurl _ _ => "covariant Piola"
  | withMapping _ m => m
  | restricted _ e _ => e.mapping
  | broken _ e => e.mapping
/-- The mappings of a list of elements.
Source: `finat/ufl/mixedelement.py` 123; `finat/ufl/tensorproductelement.py` 72-74. -/
def mappings : List UElem → List String
  | [] => []
  | e :: es => e.mapping :: mappings es
end

/-- `e.reference_value_shape`: stored, except for `WithMapping`, where it follows the
mapping (`finat/ufl/hdivcurl.py` 194-204); there a missing cell is an
`AttributeError`. -/
def shape : UElem → Except Err (List Nat)
  | withMapping e m =>
    match e.base.cell with
    | none => .error .attributeError
    | some c =>
      if m = "covariant Piola" ∨ m = "contravariant Piola" then .ok [c.tdim]
      else if m = "double covariant Piola" ∨ m = "double contravariant Piola" then
        .ok [c.tdim, c.tdim]
      else e.shape
  | e => .ok e.base.shape

/-- The shapes of a list of elements.
Source: `finat/ufl/mixedelement.py` 64, 199. -/
def shapes : List UElem → Except Err (List (List Nat))
  | [] => .ok []
  | e :: es => do
    let s ← e.shape
    .ok (s :: (← shapes es))

end UElem

open UElem

/-- `product(shape)` (external, `ufl.utils.sequences`).
External; used at `finat/ufl/mixedelement.py` 64, 430. -/
def prodNat (l : List Nat) : Nat := l.foldr (· * ·) 1

/-- `FiniteElement.__init__` (`finat/ufl/finiteelement.py` 120-176). -/
def mkFe (family : String) (cell : Option UCell) (order : Order) (formDegree : Option Int)
    (quad variant : Option String) : Except Err UElem := do
  let d ← canonicalElementDescription family cell order formDegree
  .ok (.fe ⟨d.family, cell, d.order.toDeg, quad, d.shape⟩ d.order d.sobolev d.mapping variant
    d.embedded)

/-- The common cell of the elements that have one (`finat/ufl/mixedelement.py` 42-51). -/
def mixedCell (cs : List (Option UCell)) : Except Err (Option UCell) :=
  match cs.filterMap id with
  | [] => .ok none
  | c :: cs => if cs.all (· == c) then .ok (some c) else .error .valueError

/-- The common quadrature scheme (`finat/ufl/mixedelement.py` 55-60). -/
def mixedQuad (qs : List (Option String)) : Except Err (Option String) :=
  match qs with
  | [] => .ok none
  | q :: qs => if qs.all (· == q) then .ok q else .error .valueError

/-- `MixedElement.__init__` up to the stored data (`finat/ufl/mixedelement.py` 29-73).
`shape` is the keyword argument `reference_value_shape`. Arguments that are lists of
elements (lines 36-40) are not modelled. -/
def mixedBase (subs : List UElem) (shape : Option (List Nat)) : Except Err Base := do
  let cell ← mixedCell (subs.map UElem.cell)
  let quad ← mixedQuad (subs.map UElem.quadScheme)
  let shapes ← shapes subs
  let degree ← mixedDegree (subs.map UElem.degree)
  .ok ⟨"Mixed", cell, degree, quad, shape.getD [(shapes.map prodNat).sum]⟩

/-- `MixedElement(*elements)`.
Source: `finat/ufl/mixedelement.py` 29-74. -/
def mkMixed (subs : List UElem) : Except Err UElem := do
  let b ← mixedBase subs none
  .ok (.mixed b subs)

/-- `VectorElement.__init__` once the sub-element is there
(`finat/ufl/mixedelement.py` 297-324); `variant` is printed. -/
def mkVectorOf (sub : UElem) (dim : Option Nat) (variant : Option String) :
    Except Err UElem := do
  let dim ← (match dim, sub.cell with
    | some d, _ => .ok d
    | none, some c => .ok c.tdim
    | none, none => .error .valueError)
  let s ← sub.shape
  let _ ← mixedBase (List.replicate dim sub) (some (dim :: s))
  .ok (.vector ⟨sub.family, sub.cell, sub.degree, sub.quadScheme, dim :: s⟩ sub dim variant)

/-- `VectorElement(element, dim=dim)` (`finat/ufl/mixedelement.py` 283-286). -/
def mkVector (sub : UElem) (dim : Option Nat) : Except Err UElem :=
  mkVectorOf sub dim sub.variant

/-- `compute_indices(shape)` (external, `ufl.permutation`) and `np.ndindex(*shape)`: all
multi-indices, last index fastest.
External; used at `finat/ufl/mixedelement.py` 409, 467. -/
def indicesOf : List Nat → List (List Nat)
  | [] => [[]]
  | n :: ns => (List.range n).flatMap fun i => (indicesOf ns).map (i :: ·)

/-- The dictionary of `symmetry=True` (`finat/ufl/mixedelement.py` 391-396). -/
def fullSymmetry (n : Nat) : Symmetry :=
  (List.range n).flatMap fun i =>
    ((List.range n).filter (fun j => decide (j < i))).map fun j => ([i, j], [j, i])

/-- The bounds of one pair of indices (`finat/ufl/mixedelement.py` 405-407). Reading
`shape` past its end is an `IndexError`. -/
def indexBounds : List Nat → List Nat → List Nat → Except Err Unit
  | [], [], _ => .ok ()
  | _ :: _, _ :: _, [] => .error .indexError
  | a :: as, b :: bs, n :: ns =>
    if a < n ∧ b < n then indexBounds as bs ns else .error .valueError
  | _, _, _ => .error .valueError

/-- The validation loop of the symmetry dictionary (`finat/ufl/mixedelement.py` 402-407). -/
def checkSymmetry (shape : List Nat) : Symmetry → Except Err Unit
  | [] => .ok ()
  | (i, j) :: rest => do
    if i.length ≠ j.length then .error .valueError
    else
      let _ ← indexBounds i j shape
      checkSymmetry shape rest

/-- The first numbering loop (`finat/ufl/mixedelement.py` 414-420): components that are
not keys of the dictionary are numbered in order. -/
def numberFree (symmetry : Symmetry) : List (List Nat) → Nat → Dict (List Nat) Nat →
    Dict (List Nat) Nat × Nat
  | [], n, d => (d, n)
  | i :: is, n, d =>
    if (symmetry.get? i).isSome then numberFree symmetry is n d
    else numberFree symmetry is (n + 1) (d.set i n)

/-- The second numbering loop (`finat/ufl/mixedelement.py` 423-425): the keys take the
number of the component they are mapped to. -/
def numberSym (symmetry : Symmetry) : List (List Nat) → Dict (List Nat) Nat →
    Except Err (Dict (List Nat) Nat)
  | [], d => .ok d
  | i :: is, d =>
    match symmetry.get? i with
    | none => numberSym symmetry is d
    | some j => do
      let n ← d.get j
      numberSym symmetry is (d.set i n)

/-- The symmetry argument: `None`, `True` or a dictionary.
Source: `finat/ufl/mixedelement.py` 388-398. -/
inductive SymArg where
  | none
  | full
  | dict (d : Symmetry)

/-- `TensorElement.__init__` once the sub-element is there
(`finat/ufl/mixedelement.py` 379-454). -/
def mkTensorOf (sub : UElem) (shape : Option (List Nat)) (symmetry : SymArg)
    (variant : Option String) : Except Err UElem := do
  let shape ← (match shape, sub.cell with
    | some s, _ => .ok s
    | none, some c => .ok [c.tdim, c.tdim]
    | none, none => .error .valueError)
  let symmetry ← (match symmetry with
    | .none => .ok []
    | .full => match shape with
      | [m, n] => if m = n then .ok (fullSymmetry m) else .error .valueError
      | _ => .error .valueError
    | .dict d => .ok d)
  let _ ← checkSymmetry shape symmetry
  let indices := indicesOf shape
  let (free, count) := numberFree symmetry indices 0 []
  let number ← numberSym symmetry indices free
  let _ ← indices.mapM number.get
  let s ← sub.shape
  let refShape := if symmetry.isEmpty then shape else [prodNat shape - symmetry.length]
  let mapping := if symmetry.isEmpty then sub.mapping else "symmetries"
  let b ← mixedBase (List.replicate count sub) (some (refShape ++ s))
  .ok (.tensor ⟨sub.family, b.cell, sub.degree, b.quadScheme, refShape ++ s⟩ sub shape symmetry
    number count mapping variant)

/-- `TensorElement(element, shape=shape, symmetry=symmetry)`
(`finat/ufl/mixedelement.py` 367-370). -/
def mkTensor (sub : UElem) (shape : Option (List Nat)) (symmetry : SymArg) :
    Except Err UElem :=
  mkTensorOf sub shape symmetry sub.variant

/-- The cells of a list of elements that all have one.
Source: `finat/ufl/tensorproductelement.py` 46. -/
def cellsOf : List UElem → Except Err (List UCell)
  | [] => .ok []
  | e :: es => match e.cell with
    | none => .error .valueError
    | some c => do .ok (c :: (← cellsOf es))

/-- `TensorProductElement.__init__` (`finat/ufl/tensorproductelement.py` 32-64). -/
def mkProduct (subs : List UElem) (cell : Option UCell) : Except Err UElem := do
  if subs.isEmpty then .error .valueError
  else
    let cell ← (match cell with
      | some c => .ok c
      | none => do .ok (.tensor (← cellsOf subs)))
    let shape := (← shapes subs).flatten
    if shape.length > 1 then .error .valueError
    else .ok (.product ⟨"TensorProductElement", some cell, .tuple (subs.map UElem.degree),
      none, shape⟩ subs)

/-- `EnrichedElementBase.__init__` (`finat/ufl/enrichedelement.py` 20-54). -/
def mkEnriched (nodal : Bool) (subs : List UElem) : Except Err UElem :=
  match subs with
  | [] => .error .indexError
  | e :: es => do
    if !(es.all (fun x => x.cell == e.cell)) then .error .valueError
    else
      let degree ← enrichedDegree (subs.map UElem.degree)
      let quads := (subs.map UElem.quadScheme).filterMap id
      let quad := quads.head?
      if !(quads.all (fun q => some q == quad)) then .error .valueError
      else
        let s ← e.shape
        let ss ← shapes es
        if !(ss.all (· == s)) then .error .valueError
        else .ok (.enriched ⟨if nodal then "NodalEnrichedElement" else "EnrichedElement",
          e.cell, degree, quad, s⟩ nodal subs)

/-- The data stored by `HDivElement` and `HCurlElement` (`finat/ufl/hdivcurl.py` 42-54,
100-113). -/
def wrapBase (e : UElem) : Except Err Base :=
  match e.cell with
  | none => .error .attributeError
  | some c => .ok ⟨"TensorProductElement", some c, e.degree, e.quadScheme, [c.tdim]⟩

/-- `HDivElement(element)`.
Source: `finat/ufl/finiteelement.py` 61, 78-79. -/
def mkHDiv (e : UElem) : Except Err UElem := do .ok (.hdiv (← wrapBase e) e)

/-- `HCurlElement(element)`.
Source: `finat/ufl/finiteelement.py` 63, 94-95. -/
def mkHCurl (e : UElem) : Except Err UElem := do .ok (.hcurl (← wrapBase e) e)

/-- `WithMapping(element, mapping)` (`finat/ufl/hdivcurl.py` 164-169). -/
def mkWithMapping (e : UElem) (m : String) : Except Err UElem :=
  if m = "symmetries" then .error .valueError else .ok (.withMapping e m)

/-- `valid_restriction_domains` (`finat/ufl/restrictedelement.py` 15). -/
def restrictionDomains : List String :=
  ["interior", "facet", "face", "edge", "vertex", "reduced"]

/-- `RestrictedElement(element, domain)` (`finat/ufl/restrictedelement.py` 23-37). -/
def mkRestricted (e : UElem) (domain : String) : Except Err UElem := do
  if !restrictionDomains.contains domain then .error .valueError
  else .ok (.restricted ⟨"RestrictedElement", e.cell, e.degree, e.quadScheme, ← e.shape⟩ e domain)

/-- `BrokenElement(element)` (`finat/ufl/brokenelement.py` 18-28). -/
def mkBroken (e : UElem) : Except Err UElem := do
  .ok (.broken ⟨"BrokenElement", e.cell, e.degree, e.quadScheme, ← e.shape⟩ e)

/-- The two cells of a product (`cell_h, cell_v = cell.sub_cells()`), compared with the
names required (`finat/ufl/finiteelement.py` 48-52, 66-70, 82-86). -/
def needCells (cs : List UCell) (h v : CellName) : Except Err Unit :=
  match cs with
  | [a, b] => if a = .named h ∧ b = .named v then .ok () else .error .valueError
  | _ => .error .valueError

/-- The products of RTCF and RTCE (`finat/ufl/finiteelement.py` 47-63): continuous times
discontinuous intervals, both ways round, wrapped. -/
def expandRT (wrap : UElem → Except Err UElem) (cs : List UCell) (order : Order)
    (variant : Option String) : Except Err UElem := do
  let _ ← needCells cs .interval .interval
  let c ← mkFe "CG" (some (.named .interval)) order none none variant
  let d ← mkFe "DG" (some (.named .interval)) (← order.pred) none none variant
  let cd ← mkProduct [c, d] (some (.tensor cs))
  let dc ← mkProduct [d, c] (some (.tensor cs))
  mkEnriched false [← wrap cd, ← wrap dc]

/-- The products of NCF and NCE (`finat/ufl/finiteelement.py` 65-95). -/
def expandNC (wrap : UElem → Except Err UElem) (f1 f2 : String) (lower1 lower2 : Bool)
    (cs : List UCell) (order : Order) (variant : Option String) : Except Err UElem := do
  let _ ← needCells cs .quadrilateral .interval
  let low ← order.pred
  let q1 ← mkFe f1 (some (.named .quadrilateral)) (if lower1 then low else order) none none variant
  let q2 ← mkFe f2 (some (.named .quadrilateral)) (if lower2 then low else order) none none variant
  let d ← mkFe "DG" (some (.named .interval)) low none none variant
  let c ← mkFe "CG" (some (.named .interval)) order none none variant
  let p1 ← mkProduct [q1, d] (some (.tensor cs))
  let p2 ← mkProduct [q2, c] (some (.tensor cs))
  mkEnriched false [← wrap p1, ← wrap p2]

/-- `"DG" if cell.cellname() in simplices else "DQ"` with a suffix
(`finat/ufl/finiteelement.py` 103-105, 111-113). -/
def dqFamily (simplex other : String) : UCell → String
  | .named n => if simplices.contains n.str then simplex else other
  | .tensor _ => other

mutual
/-- `FiniteElement(family, cell, degree, form_degree, quad_scheme, variant)`: `__new__`
and `__init__` (`finat/ufl/finiteelement.py` 26-176). On a product cell the families RTCF,
RTCE, NCF, NCE, Q, DQ and DQ L2 are expanded into products; the quadrature scheme is
dropped then. -/
def newFe (family : String) (order : Order) (formDegree : Option Int)
    (quad variant : Option String) : Option UCell → Except Err UElem
  | none => mkFe family none order formDegree quad variant
  | some c => newFeOn family order formDegree quad variant c
/-- `FiniteElement` on a given cell.
Source: `finat/ufl/finiteelement.py` 54-55, 98. -/
def newFeOn (family : String) (order : Order) (formDegree : Option Int)
    (quad variant : Option String) : UCell → Except Err UElem
  | .named n => mkFe family (some (.named n)) order formDegree quad variant
  | .tensor cs =>
    match canonicalElementDescription family (some (.tensor cs)) order formDegree with
    | .error e => .error e
    | .ok d =>
      if d.family = "RTCF" then expandRT mkHDiv cs d.order variant
      else if d.family = "RTCE" then expandRT mkHCurl cs d.order variant
      else if d.family = "NCF" then expandNC mkHDiv "RTCF" "DQ" false true cs d.order variant
      else if d.family = "NCE" then expandNC mkHCurl "Q" "RTCE" false false cs d.order variant
      else if d.family = "Q" then
        match newFes "CG" "CG" d.order variant cs with
        | .error e => .error e
        | .ok subs => mkProduct subs (some (.tensor cs))
      else if d.family = "DQ" then
        match newFes "DG" "DQ" d.order variant cs with
        | .error e => .error e
        | .ok subs => mkProduct subs (some (.tensor cs))
      else if d.family = "DQ L2" then
        match newFes "DG L2" "DQ L2" d.order variant cs with
        | .error e => .error e
        | .ok subs => mkProduct subs (some (.tensor cs))
      else mkFe family (some (.tensor cs)) order formDegree quad variant
/-- One factor per cell: the family named `simplex` on simplices, `other` elsewhere.
Source: `finat/ufl/finiteelement.py` 98-99, 103-107, 111-115. -/
def newFes (simplex other : String) (order : Order) (variant : Option String) :
    List UCell → Except Err (List UElem)
  | [] => .ok []
  | c :: cs =>
    match newFeOn (dqFamily simplex other c) order none none variant c with
    | .error e => .error e
    | .ok e => match newFes simplex other order variant cs with
      | .error e => .error e
      | .ok es => .ok (e :: es)
end

/-- `VectorElement(family, cell, degree, dim, form_degree, quad_scheme, variant)`
(`finat/ufl/mixedelement.py` 280-324). -/
def newVector (family : String) (cell : Option UCell) (order : Order) (dim : Option Nat)
    (formDegree : Option Int) (quad variant : Option String) : Except Err UElem := do
  let sub ← newFe family order formDegree quad variant cell
  let dim ← (match dim, cell with
    | some d, _ => .ok d
    | none, some c => .ok c.tdim
    | none, none => .error .valueError)
  mkVectorOf sub (some dim) variant

/-- `TensorElement(family, cell, degree, shape, symmetry, quad_scheme, variant)`
(`finat/ufl/mixedelement.py` 366-455). -/
def newTensor (family : String) (cell : Option UCell) (order : Order)
    (shape : Option (List Nat)) (symmetry : SymArg) (quad variant : Option String) :
    Except Err UElem := do
  let sub ← newFe family order none quad variant cell
  let shape ← (match shape, cell with
    | some s, _ => .ok s
    | none, some c => .ok [c.tdim, c.tdim]
    | none, none => .error .valueError)
  mkTensorOf sub (some shape) symmetry variant

mutual
/-- `e.reconstruct()` without arguments: `finat/ufl/finiteelement.py` 203-215,
`mixedelement.py` 246-248, 330-333, 520-523, `tensorproductelement.py` 107-110,
`enrichedelement.py` 88-90, `hdivcurl.py` 69-71, 128-130, 218-222, `restrictedelement.py` 71-74,
`brokenelement.py` 43-45. -/
def reconstruct : UElem → Except Err UElem
  | .fe b o _ _ v _ => newFe b.family o none b.quadScheme v b.cell
  | .mixed _ subs => do mkMixed (← reconstructs subs)
  | .vector _ e dim _ => do mkVector (← reconstruct e) (some dim)
  | .tensor _ e shape symmetry _ _ _ _ => do
    mkTensor (← reconstruct e) (some shape) (.dict symmetry)
  | .product b subs => do mkProduct (← reconstructs subs) b.cell
  | .enriched _ nodal subs => do mkEnriched nodal (← reconstructs subs)
  | .hdiv _ e => do mkHDiv (← reconstruct e)
  | .hcurl _ e => do mkHCurl (← reconstruct e)
  | .withMapping e m => do mkWithMapping (← reconstruct e) m
  | .restricted _ e d => do mkRestricted (← reconstruct e) d
  | .broken _ e => do mkBroken (← reconstruct e)
/-- `[e.reconstruct() for e in elements]`.
Source: `finat/ufl/mixedelement.py` 248; `finat/ufl/tensorproductelement.py` 110;
`finat/ufl/enrichedelement.py` 90. -/
def reconstructs : List UElem → Except Err (List UElem)
  | [] => .ok []
  | e :: es => do
    let e ← reconstruct e
    .ok (e :: (← reconstructs es))
end

mutual
/-- `e.embedded_subdegree`: `finat/ufl/finiteelement.py` 239-247, `mixedelement.py`
236-239, `tensorproductelement.py` 135-138, `enrichedelement.py` 92-95, `hdivcurl.py` 85-88,
144-147, `brokenelement.py` 55-58, and the inherited `degree()`
(`finiteelementbase.py` 241-244) for restricted elements.  `WithMapping` asks for the
attribute `_element` of the wrapped element (`hdivcurl.py` 236-239); when the wrapped
element has none, the attribute lookup falls back on the wrapped element itself. -/
def embeddedSub : UElem → Except Err Deg
  | .fe _ o _ _ _ emb => do
    let r ← (match o with
      | .int r => .ok (.int r)
      | .tuple rs => pyMin (rs.map .int)
      | .none => .error .typeError)
    match emb with
    | .int m => pyMin [r, .int m]
    | _ => .ok r
  | .mixed _ subs => do pyMin (← embeddedSubs subs)
  | .vector _ e dim _ => do pyMin (← (if dim = 0 then .ok [] else
      do .ok (List.replicate dim (← embeddedSub e))))
  | .tensor _ e _ _ _ count _ _ => do pyMin (← (if count = 0 then .ok [] else
      do .ok (List.replicate count (← embeddedSub e))))
  | .product b _ => match b.degree with
    | .tuple ds => pyMin ds
    | _ => .error .typeError
  | .enriched _ _ subs => do pyMin (← embeddedSubs subs)
  | .hdiv _ e => embeddedSub e
  | .hcurl _ e => embeddedSub e
  | .withMapping e _ => match e with
    | .restricted _ e' _ => embeddedSub e'
    | e => embeddedSub e
  | .restricted b _ _ => .ok b.degree
  | .broken _ e => embeddedSub e
/-- The embedded subdegrees of a list of elements.
Source: `finat/ufl/mixedelement.py` 239; `finat/ufl/enrichedelement.py` 95. -/
def embeddedSubs : List UElem → Except Err (List Deg)
  | [] => .ok []
  | e :: es => do
    let d ← embeddedSub e
    .ok (d :: (← embeddedSubs es))
end

mutual
/-- `e.embedded_superdegree`: `finat/ufl/finiteelement.py` 249-257, `mixedelement.py`
241-244, `tensorproductelement.py` 130-133, `enrichedelement.py` 97-100, `hdivcurl.py` 90-93,
149-152, `brokenelement.py` 60-63, `finiteelementbase.py` 236-239; `WithMapping` as for
the subdegree. -/
def embeddedSuper : UElem → Except Err Deg
  | .fe _ o _ _ _ emb => do
    let r ← (match o with
      | .int r => .ok (.int r)
      | .tuple rs => pyMax (rs.map .int)
      | .none => .error .typeError)
    match emb with
    | .int m => pyMax [r, .int m]
    | _ => .ok r
  | .mixed _ subs => do pyMax (← embeddedSupers subs)
  | .vector _ e dim _ => do pyMax (← (if dim = 0 then .ok [] else
      do .ok (List.replicate dim (← embeddedSuper e))))
  | .tensor _ e _ _ _ count _ _ => do pyMax (← (if count = 0 then .ok [] else
      do .ok (List.replicate count (← embeddedSuper e))))
  | .product b _ => match b.degree with
    | .tuple ds => pySum ds
    | _ => .error .typeError
  | .enriched _ _ subs => do pyMax (← embeddedSupers subs)
  | .hdiv _ e => embeddedSuper e
  | .hcurl _ e => embeddedSuper e
  | .withMapping e _ => match e with
    | .restricted _ e' _ => embeddedSuper e'
    | e => embeddedSuper e
  | .restricted b _ _ => .ok b.degree
  | .broken _ e => embeddedSuper e
/-- The embedded superdegrees of a list of elements.
Source: `finat/ufl/mixedelement.py` 244; `finat/ufl/enrichedelement.py` 100. -/
def embeddedSupers : List UElem → Except Err (List Deg)
  | [] => .ok []
  | e :: es => do
    let d ← embeddedSuper e
    .ok (d :: (← embeddedSupers es))
end

/-- The elements that the constructors can build.
Source: `finat/ufl/finiteelement.py` 26-176; `finat/ufl/mixedelement.py` 29-74, 279-324,
366-455; `finat/ufl/tensorproductelement.py` 32-64; `finat/ufl/enrichedelement.py` 20-55. -/
inductive Built : UElem → Prop
  | fe {f c o k q v e} (h : newFe f o k q v c = .ok e) : Built e
  | mixed {subs e} (hs : ∀ s ∈ subs, Built s) (h : mkMixed subs = .ok e) : Built e
  | vector {s dim e} (hs : Built s) (h : mkVector s dim = .ok e) : Built e
  | newVector {f c o dim k q v e} (h : newVector f c o dim k q v = .ok e) : Built e
  | tensor {s shape sym e} (hs : Built s) (h : mkTensor s shape sym = .ok e) : Built e
  | newTensor {f c o shape sym q v e} (h : newTensor f c o shape sym q v = .ok e) : Built e
  | product {subs c e} (hs : ∀ s ∈ subs, Built s) (h : mkProduct subs c = .ok e) : Built e
  | enriched {n subs e} (hs : ∀ s ∈ subs, Built s) (h : mkEnriched n subs = .ok e) : Built e
  | hdiv {s e} (hs : Built s) (h : mkHDiv s = .ok e) : Built e
  | hcurl {s e} (hs : Built s) (h : mkHCurl s = .ok e) : Built e
  | withMapping {s m e} (hs : Built s) (h : mkWithMapping s m = .ok e) : Built e
  | restricted {s d e} (hs : Built s) (h : mkRestricted s d = .ok e) : Built e
  | broken {s e} (hs : Built s) (h : mkBroken s = .ok e) : Built e

end FInAT.Ufl
