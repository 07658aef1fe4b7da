import Verif.Model.EntityDofs

/-!
# Element trees

FInAT elements as trees over FIAT leaves, with the methods that do not evaluate anything:
`cell`, `degree`, `formdegree`, `entity_dofs`, `space_dimension`, `index_shape`, `value_shape`,
`mapping`. Methods that can raise return `Except Err`.
-/

namespace FInAT

/-- Tuple trees of degrees: an integer, or a tuple of degrees (tensor products).
Source: `finat/tensor_product.py` 43; `finat/enriched.py` 153-160. -/
inductive DegTree where
  | leaf (n : Nat)
  | node (ts : List DegTree)
deriving Repr

namespace DegTree
mutual
/-- Decidable equality of degree trees.
Source: `finat/cube.py` 38. -/
def decEq : (a b : DegTree) → Decidable (a = b)
  | .leaf m, .leaf n => if h : m = n then isTrue (by rw [h]) else isFalse (by intro e; cases e; exact h rfl)
  | .leaf _, .node _ => isFalse (by intro e; cases e)
  | .node _, .leaf _ => isFalse (by intro e; cases e)
  | .node as, .node bs =>
    match decEqL as bs with
    | isTrue h => isTrue (by rw [h])
    | isFalse h => isFalse (by intro e; cases e; exact h rfl)
/-- Decidable equality of lists of degree trees.
Source: `finat/cube.py` 38. -/
def decEqL : (as bs : List DegTree) → Decidable (as = bs)
  | [], [] => isTrue rfl
  | [], _ :: _ => isFalse (by intro e; cases e)
  | _ :: _, [] => isFalse (by intro e; cases e)
  | a :: as, b :: bs =>
    match decEq a b, decEqL as bs with
    | isTrue h, isTrue h' => isTrue (by rw [h, h'])
    | isFalse h, _ => isFalse (by intro e; cases e; exact h rfl)
    | _, isFalse h => isFalse (by intro e; cases e; exact h rfl)
end
instance : DecidableEq DegTree := decEq
end DegTree

/-- The value mappings (`mapping` strings) of FIAT elements.
Source: `finat/tensor_product.py` 193-199; `finat/hdivcurl.py` 146-148. -/
inductive Mapping where
  | affine
  | contravariantPiola
  | covariantPiola
  | doubleContravariantPiola
  | doubleCovariantPiola
deriving DecidableEq, Repr

/-- Which classes a leaf element belongs to, as far as `finat/restricted.py` distinguishes them by
single dispatch: ordinary `FiatElement`s, the discontinuous ones of lines 56-57, `HDivTrace`,
`PhysicallyMappedElement`s and elements without a rule. -/
inductive LeafKind where
  | fiat
  | dg
  | trace
  | physicallyMapped
  | other
deriving DecidableEq, Repr

/-- A FIAT-backed element, `finat/fiat_elements.py:43-91`, as the data its methods return. `fns` are
labels of its basis functions in order (for a restriction: the labels of the kept functions), so
`space_dimension()` is their number. `id` identifies the FIAT element for tabulation. -/
structure Leaf where
  id : Nat
  kind : LeafKind
  cell : Cell
  formdegree : Option Nat
  valueShape : List Nat
  mapping : Option Mapping
  degree : Nat
  fns : List Nat
  dofs : EntityDofs
deriving Repr, DecidableEq

/-- FInAT element trees. Constructors are the element classes of `finat/tensor_product.py`,
`cube.py`, `enriched.py`, `mixed.py`, `discontinuous.py`, `tensorfiniteelement.py`, `hdivcurl.py`
and `quadrature_element.py`; a quadrature element is described by (an identifier of) its rule, its cell and the extents of the
point indices of its rule. Raw constructors perform no checks; the Python constructors are
`mkTensorProduct`, `mkEnriched`, `mkMixedSub`, `mkMixed`, `mkHDiv`, `mkHCurl`. -/
inductive Elem where
  | leaf (l : Leaf)
  | tensorProduct (factors : List Elem)
  | flattened (product : Elem)
  | enriched (elements : List Elem)
  | mixedSub (element : Elem) (size offset : Nat)
  | discontinuous (element : Elem)
  | tensorFE (element : Elem) (shape : List Nat) (transpose : Bool)
  | hdiv (wrappee : Elem)
  | hcurl (wrappee : Elem)
  | quadrature (rule : Nat) (cell : Cell) (extents : List Nat)
deriving Repr

/-- `result, = set(l)`: the common value, `ValueError` when the set does not have exactly one entry.
Source: `finat/enriched.py` 28, 75; `finat/cube.py` 38. -/
def uniqueOf {α : Type} [DecidableEq α] : List α → Except Err α
  | [] => .error .valueError
  | a :: l => if l.all (fun b => decide (b = a)) then .ok a else .error .valueError

/-- `max` of a non-empty list.
Source: `finat/enriched.py` 45. -/
def maxList : List Nat → Nat
  | [] => 0
  | a :: l => Nat.max a (maxList l)

mutual
/-- `tree_map(max, *args)`, `finat/enriched.py:153-160`: the set of `isinstance(arg, tuple)` must be a
singleton (so no arguments, or mixed leaves and tuples, raise `ValueError`), as must the set of
lengths; `max` of a single integer raises `TypeError`. The model recurses on the first argument; the
others are given as a list. -/
def treeMax : DegTree → List DegTree → Except Err DegTree
  | .leaf n, rest => do
    let ns ← rest.mapM fun t => match t with
      | .leaf m => .ok m
      | .node _ => .error .valueError
    if ns = [] then .error .typeError else pure (.leaf (maxList (n :: ns)))
  | .node ts, rest => do
    let tss ← rest.mapM fun t => match t with
      | .leaf _ => .error .valueError
      | .node us => if us.length = ts.length then .ok us else .error .valueError
    let rs ← treeMaxL ts tss
    pure (.node rs)
/-- `tuple(tree_map(f, *subargs) for subargs in zip(*args))`: heads and tails of the argument tuples.
Source: `finat/enriched.py` 158. -/
def treeMaxL : List DegTree → List (List DegTree) → Except Err (List DegTree)
  | [], _ => .ok []
  | t :: ts, rest => do
    let r ← treeMax t (rest.filterMap List.head?)
    let rs ← treeMaxL ts (rest.map List.tail)
    pure (r :: rs)
end

/-- `tree_map(max, *args)` for an argument list; no arguments raise `ValueError`.
Source: `finat/enriched.py` 37, 153-160. -/
def treeMapMax : List DegTree → Except Err DegTree
  | [] => .error .valueError
  | t :: ts => treeMax t ts

namespace Elem

mutual
/-- The `cell` property: `finat/fiat_elements.py:50-52`, `tensor_product.py:33-35`, `cube.py:22-30`,
`enriched.py:26-29`, `mixed.py:36-38`, `discontinuous.py:15-17`, `tensorfiniteelement.py:56-58`,
`hdivcurl.py:25-27`, `quadrature_element.py:42`. -/
def cell : Elem → Except Err Cell
  | .leaf l => .ok l.cell
  | .tensorProduct fs => do
    let cs ← cellL fs
    pure (.prod cs)
  | .flattened p => do
    let c ← p.cell
    if c.spatialDim = 2 then .ok .quad
    else if c.spatialDim = 3 then .ok .hex
    else .error .notImplemented
  | .enriched es => do
    let cs ← cellL es
    uniqueOf cs
  | .mixedSub e _ _ => e.cell
  | .discontinuous e => e.cell
  | .tensorFE e _ _ => e.cell
  | .hdiv w => w.cell
  | .hcurl w => w.cell
  | .quadrature _ c _ => .ok c
/-- `[e.cell for e in elements]`.
Source: `finat/enriched.py` 28; `finat/tensor_product.py` 35. -/
def cellL : List Elem → Except Err (List Cell)
  | [] => .ok []
  | e :: es => do
    let c ← e.cell
    let cs ← cellL es
    pure (c :: cs)
end

mutual
/-- `space_dimension()`: `fiat_elements.py:77-78`, `tensor_product.py:67-68`, `cube.py:60-61`,
`enriched.py:64-66`, `mixed.py:61-62`, `discontinuous.py:53-54`, `tensorfiniteelement.py:98-99`,
`hdivcurl.py:50-51`, `quadrature_element.py:76-77`. In `tensorFE`/`quadrature` it is the product of
`index_shape`. -/
def spaceDim : Elem → Nat
  | .leaf l => l.fns.length
  | .tensorProduct fs => (spaceDimL fs).prod
  | .flattened p => p.spaceDim
  | .enriched es => (spaceDimL es).sum
  | .mixedSub e _ _ => e.spaceDim
  | .discontinuous e => e.spaceDim
  | .tensorFE e shape transpose =>
    if transpose then (shape ++ e.indexShape).prod else (e.indexShape ++ shape).prod
  | .hdiv w => w.spaceDim
  | .hcurl w => w.spaceDim
  | .quadrature _ _ extents => extents.prod
/-- `[e.space_dimension() for e in elements]`.
Source: `finat/enriched.py` 66; `finat/tensor_product.py` 68. -/
def spaceDimL : List Elem → List Nat
  | [] => []
  | e :: es => e.spaceDim :: spaceDimL es
/-- `index_shape`: `fiat_elements.py:80-82`, `tensor_product.py:70-72`, `cube.py:90-92`,
`enriched.py:68-70`, `mixed.py:64-66`, `discontinuous.py:56-58`, `tensorfiniteelement.py:101-106`,
`hdivcurl.py:53-55`, `quadrature_element.py:79-82`. -/
def indexShape : Elem → List Nat
  | .leaf l => [l.fns.length]
  | .tensorProduct fs => (indexShapeL fs).flatten
  | .flattened p => p.indexShape
  | .enriched es => [(spaceDimL es).sum]
  | .mixedSub e _ _ => e.indexShape
  | .discontinuous e => e.indexShape
  | .tensorFE e shape transpose =>
    if transpose then shape ++ e.indexShape else e.indexShape ++ shape
  | .hdiv w => w.indexShape
  | .hcurl w => w.indexShape
  | .quadrature _ _ extents => extents
/-- `[e.index_shape for e in elements]`.
Source: `finat/tensor_product.py` 72. -/
def indexShapeL : List Elem → List (List Nat)
  | [] => []
  | e :: es => e.indexShape :: indexShapeL es
end

/-- `TensorProductElement.__init__`, `tensor_product.py:25-31`: at most one non-scalar factor. -/
def prodValueShape (shapes : List (List Nat)) : Except Err (List Nat) :=
  match shapes.filter (fun s => decide (s ≠ [])) with
  | [] => .ok []
  | [s] => .ok s
  | _ => .error .notImplemented

mutual
/-- `value_shape`: `fiat_elements.py:84-86`, `tensor_product.py:25-31,74-76`, `cube.py:94-96`,
`enriched.py:72-76`, `mixed.py:68-70`, `discontinuous.py:60-62`, `tensorfiniteelement.py:108-110`,
`hdivcurl.py:57-59`, `quadrature_element.py:84-86`. The tensor-product check of the constructor is
modelled here (it raises before the element exists, see `mkTensorProduct`). -/
def valueShape : Elem → Except Err (List Nat)
  | .leaf l => .ok l.valueShape
  | .tensorProduct fs => do
    let ss ← valueShapeL fs
    prodValueShape ss
  | .flattened p => p.valueShape
  | .enriched es => do
    let ss ← valueShapeL es
    uniqueOf ss
  | .mixedSub _ size _ => .ok [size]
  | .discontinuous e => e.valueShape
  | .tensorFE e shape _ => do
    let s ← e.valueShape
    pure (shape ++ s)
  | .hdiv w => do
    let c ← w.cell
    pure [c.spatialDim]
  | .hcurl w => do
    let c ← w.cell
    pure [c.spatialDim]
  | .quadrature _ _ _ => .ok []
/-- `[e.value_shape for e in elements]`.
Source: `finat/enriched.py` 75; `finat/tensor_product.py` 25. -/
def valueShapeL : List Elem → Except Err (List (List Nat))
  | [] => .ok []
  | e :: es => do
    let s ← e.valueShape
    let ss ← valueShapeL es
    pure (s :: ss)
end

mutual
/-- `formdegree`: `fiat_elements.py:63-65`, `tensor_product.py:45-50`, `cube.py:41-43`,
`enriched.py:39-45`, `mixed.py:48-50`, `discontinuous.py:27-30`, `tensorfiniteelement.py:68-70`,
`hdivcurl.py:110-112,138-140`, `quadrature_element.py:61-63`. `max` of no elements raises
`ValueError`. `get_spatial_dimension() - 1` of a 0-dimensional cell would be `-1`; an H(div) wrapper
needs an interval factor, so the dimension is at least one. -/
def formdegree : Elem → Except Err (Option Nat)
  | .leaf l => .ok l.formdegree
  | .tensorProduct fs => do
    let ks ← formdegreeL fs
    if ks.contains none then pure none else pure (some (ks.filterMap id).sum)
  | .flattened p => p.formdegree
  | .enriched es => do
    let ks ← formdegreeL es
    if ks.contains none then pure none
    else if ks = [] then .error .valueError
    else pure (some (maxList (ks.filterMap id)))
  | .mixedSub e _ _ => e.formdegree
  | .discontinuous e => do
    let c ← e.cell
    pure (some c.spatialDim)
  | .tensorFE e _ _ => e.formdegree
  | .hdiv w => do
    let c ← w.cell
    pure (some (c.spatialDim - 1))
  | .hcurl _ => .ok (some 1)
  | .quadrature _ _ _ => .ok none
/-- `[e.formdegree for e in elements]`.
Source: `finat/enriched.py` 41; `finat/tensor_product.py` 47-50. -/
def formdegreeL : List Elem → Except Err (List (Option Nat))
  | [] => .ok []
  | e :: es => do
    let s ← e.formdegree
    let ss ← formdegreeL es
    pure (s :: ss)
end

mutual
/-- `mapping`: `fiat_elements.py:263-270`, `tensor_product.py:191-199`, `cube.py:98-100`,
`enriched.py:143-150`, `mixed.py:98-100`, `discontinuous.py:78-80`, `tensorfiniteelement.py:207-209`,
`hdivcurl.py:118-120,146-148`, `quadrature_element.py:141-143`. `none` is Python's `None`. -/
def mapping : Elem → Option Mapping
  | .leaf l => l.mapping
  | .tensorProduct fs =>
    match (mappingL fs).filter (fun m => decide (m ≠ some .affine)) with
    | [] => some .affine
    | [m] => m
    | _ => none
  | .flattened p => p.mapping
  | .enriched es =>
    match mappingL es with
    | [] => none
    | m :: ms => if ms.all (fun m' => decide (m' = m)) then m else none
  | .mixedSub e _ _ => e.mapping
  | .discontinuous e => e.mapping
  | .tensorFE e _ _ => e.mapping
  | .hdiv _ => some .contravariantPiola
  | .hcurl _ => some .covariantPiola
  | .quadrature _ _ _ => some .affine
/-- `[e.mapping for e in elements]`.
Source: `finat/enriched.py` 145; `finat/tensor_product.py` 193. -/
def mappingL : List Elem → List (Option Mapping)
  | [] => []
  | e :: es => e.mapping :: mappingL es
end

mutual
/-- `degree`: `fiat_elements.py:58-61`, `tensor_product.py:41-43`, `cube.py:36-39`,
`enriched.py:35-37`, `mixed.py:44-46`, `discontinuous.py:23-25`, `tensorfiniteelement.py:64-66`,
`hdivcurl.py:33-35`, `quadrature_element.py:57-59`. `set(self.product.degree)` of an integer raises
`TypeError`. -/
def degree : Elem → Except Err DegTree
  | .leaf l => .ok (.leaf l.degree)
  | .tensorProduct fs => do
    let ds ← degreeL fs
    pure (.node ds)
  | .flattened p => do
    let d ← p.degree
    match d with
    | .leaf _ => .error .typeError
    | .node ds => uniqueOf ds
  | .enriched es => do
    let ds ← degreeL es
    treeMapMax ds
  | .mixedSub e _ _ => e.degree
  | .discontinuous e => e.degree
  | .tensorFE e _ _ => e.degree
  | .hdiv w => w.degree
  | .hcurl w => w.degree
  | .quadrature _ _ _ => .error .notImplemented
/-- `[e.degree for e in elements]`.
Source: `finat/enriched.py` 37; `finat/tensor_product.py` 43. -/
def degreeL : List Elem → Except Err (List DegTree)
  | [] => .ok []
  | e :: es => do
    let d ← e.degree
    let ds ← degreeL es
    pure (d :: ds)
end

mutual
/-- `entity_dofs()`: `fiat_elements.py:67-68`, `tensor_product.py:52-61`, `cube.py:45-54`,
`enriched.py:47-51`, `mixed.py:52-53`, `discontinuous.py:32-41`, `tensorfiniteelement.py:72-96`,
`hdivcurl.py:37-38`, `quadrature_element.py:65-74`. -/
def entityDofs : Elem → Except Err EntityDofs
  | .leaf l => .ok l.dofs
  | .tensorProduct fs => do
    let cs ← cellL fs
    let ds ← entityDofsL fs
    productise (spaceDimL fs) (cs.map fun c => c.topology.map Prod.fst) ds
  | .flattened p => do
    let d ← p.entityDofs
    pure (flattenEntities d)
  | .enriched es => do
    let cs ← cellL es
    let c ← uniqueOf cs
    let ds ← entityDofsL es
    concatenateEntityDofs c.topology (spaceDimL es) ds
  | .mixedSub e _ _ => e.entityDofs
  | .discontinuous e => do
    let c ← e.cell
    discontinuousDofs c.topology c.dimension e.spaceDim
  | .tensorFE e shape transpose => do
    let d ← e.entityDofs
    let c ← e.cell
    tensorFEDofs (c.topology.map Prod.fst) d shape.prod e.spaceDim transpose
  | .hdiv w => w.entityDofs
  | .hcurl w => w.entityDofs
  | .quadrature _ c extents => .ok (quadratureDofs c.topology c.dimension extents.prod)
/-- `[e.entity_dofs() for e in elements]`.
Source: `finat/enriched.py` 177; `finat/tensor_product.py` 212-213. -/
def entityDofsL : List Elem → Except Err (List EntityDofs)
  | [] => .ok []
  | e :: es => do
    let d ← e.entityDofs
    let ds ← entityDofsL es
    pure (d :: ds)
end

end Elem

/-! ### Constructors -/

open Elem

/-- `TensorProductElement(factors)`, `finat/tensor_product.py:21-31`. -/
def mkTensorProduct (fs : List Elem) : Except Err Elem := do
  let ss ← valueShapeL fs
  let _ ← prodValueShape ss
  pure (.tensorProduct fs)

/-- The sub-elements an argument of `EnrichedElement` contributes,
`finat/enriched.py:18` (`e.elements if isinstance(e, EnrichedElement) else (e,)`). -/
def enrichedParts : Elem → List Elem
  | .enriched es => es
  | e => [e]

/-- `EnrichedElement(elements)`, `finat/enriched.py:17-24`. -/
def mkEnriched (es : List Elem) : Elem :=
  match es.flatMap enrichedParts with
  | [e] => e
  | fs => .enriched fs

/-- `MixedSubElement(element, size, offset)`, `finat/mixed.py:27-34`. Naturals make `0 <= offset`
trivial. -/
def mkMixedSub (e : Elem) (size offset : Nat) : Except Err Elem := do
  if offset ≤ size then
    let s ← e.valueShape
    if offset + s.prod ≤ size then pure (.mixedSub e size offset) else .error .assertionError
  else .error .assertionError

/-- `MixedElement(elements)`, `finat/mixed.py:9-20`. `offsets.pop()` removes the last entry, which is
the total. -/
def mkMixed (es : List Elem) : Except Err Elem := do
  let ss ← valueShapeL es
  let offsets := cumsum0 (ss.map List.prod)
  let total := offsets.getLast?.getD 0
  let subs ← (offsets.dropLast.zip es).mapM fun p => mkMixedSub p.2 total p.1
  pure (mkEnriched subs)

end FInAT
