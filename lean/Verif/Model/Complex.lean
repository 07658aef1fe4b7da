import Verif.Model.Elem

/-!
# The complex of an element

`FiniteElementBase.complex`, `finat/finiteelementbase.py:19-23`: the cell complex over which the basis functions are defined.
It differs from the cell for macroelements. The comparison of complexes is FIAT's, transcribed from memory.
-/

namespace FInAT

/-- The complex of an element of FIAT: its cell, or a splitting of another complex, its parent (`split` names the splitting:
Alfeld, Powell-Sabin, iso and so on).
Source: `get_reference_complex()`, called in `finat/fiat_elements.py` 56; `get_parent` of FIAT's cells. -/
inductive Sx where
  | cell (c : Cell)
  | split (parent : Sx) (name : Nat)
deriving Repr, DecidableEq

/-- Complexes: those of FIAT and products.
Source: `finat/fiat_elements.py` 56; `finat/tensor_product.py` 39. -/
inductive Cx where
  | sx (s : Sx)
  | prod (cs : List Cx)
deriving Repr

/-- `a >= b`: `b` is `a`, its parent, the parent of its parent, ...
Source: FIAT's `Cell.is_parent`, used by `max_complex` in `finat/enriched.py` 33. -/
def Sx.ge : Sx → Sx → Bool
  | .cell c, b => decide (b = .cell c)
  | .split p n, b => decide (b = .split p n) || p.ge b

/-- `a > b`.
Source: FIAT's `Cell.is_parent` with `strict=True`, used by `max_complex` in `finat/enriched.py` 33. -/
def Sx.gt : Sx → Sx → Bool
  | .cell _, _ => false
  | .split p _, b => p.ge b

/-- The factors of the `product` that the quadrilateral and the hexahedron carry.
Source: FIAT's `Hypercube.product`, used by `max_complex` in `finat/enriched.py` 33. -/
def Sx.axes : Sx → List Cx
  | .cell .quad => [.sx (.cell (.simplex 1)), .sx (.cell (.simplex 1))]
  | .cell .hex => [.sx (.cell (.simplex 1)), .sx (.cell (.simplex 1)), .sx (.cell (.simplex 1))]
  | _ => []

/-- `I >= c` for intervals `I`, in as many places as there are axes: an interval has no parent, so `c` is the interval.
Source: FIAT's `TensorProductCell.compare`, used by `max_complex` in `finat/enriched.py` 33. -/
def Cx.areIntervals : List Cx → List Cx → Bool
  | [], [] => true
  | _ :: as, .sx (.cell (.simplex 1)) :: bs => areIntervals as bs
  | _, _ => false

mutual
/-- `a >= b`, factor by factor for products. Simplified: products with different numbers of factors, and products and complexes
that are no products, are incomparable (FIAT's `zip` ignores surplus factors, and the latter recurse without end; elements of
one cell do not have such complexes).
Source: FIAT's `TensorProductCell.compare`, used by `max_complex` in `finat/enriched.py` 33. -/
def Cx.ge : Cx → Cx → Bool
  | .sx a, .sx b => a.ge b
  | .sx a, .prod bs => !a.axes.isEmpty && Cx.areIntervals a.axes bs
  | .prod as, .prod bs => Cx.geL as bs
  | .prod as, .sx b => !b.axes.isEmpty && Cx.geL as b.axes
/-- `all(op(a, b) for a, b in zip(...))`.
Source: FIAT's `TensorProductCell.compare`, used by `max_complex` in `finat/enriched.py` 33. -/
def Cx.geL : List Cx → List Cx → Bool
  | [], [] => true
  | a :: as, b :: bs => a.ge b && Cx.geL as bs
  | _, _ => false
end

mutual
/-- `a > b`: in all factors.
Source: FIAT's `TensorProductCell.compare`, used by `max_complex` in `finat/enriched.py` 33. -/
def Cx.gt : Cx → Cx → Bool
  | .sx a, .sx b => a.gt b
  | .sx _, .prod _ => false
  | .prod as, .prod bs => Cx.gtL as bs
  | .prod as, .sx b => !b.axes.isEmpty && Cx.gtL as b.axes
/-- `all(op(a, b) for a, b in zip(...))`.
Source: FIAT's `TensorProductCell.compare`, used by `max_complex` in `finat/enriched.py` 33. -/
def Cx.gtL : List Cx → List Cx → Bool
  | [], [] => true
  | a :: as, b :: bs => a.gt b && Cx.gtL as bs
  | _, _ => false
end

/-- One step of Python's `max`.
Source: `max_complex`, called in `finat/enriched.py` 33. -/
def maxStep (m b : Cx) : Cx := if b.gt m then b else m

/-- `max_complex`: Python's `max` in the order of the set, and an exception unless it is at least as fine as all. The list is
the set in the order in which it is traversed, which is arbitrary.
Source: `max_complex`, called in `finat/enriched.py` 33 and passed on in `finat/cell_tools.py` 5. -/
def maxComplex : List Cx → Except Err Cx
  | [] => .error .valueError
  | c :: cs =>
    let m := cs.foldl maxStep c
    if (c :: cs).all m.ge then .ok m else .error .valueError

namespace Elem

mutual
/-- `complex`: `finat/fiat_elements.py:54-56`, `tensor_product.py:37-39`, `cube.py:32-34`, `enriched.py:31-33`,
`mixed.py:40-42`, `discontinuous.py:19-21`, `tensorfiniteelement.py:60-62`, `hdivcurl.py:29-31`,
`quadrature_element.py:53-55`. `k` gives the complexes of the elements of FIAT. -/
def complex (k : Leaf → Sx) : Elem → Except Err Cx
  | .leaf l => .ok (.sx (k l))
  | .tensorProduct fs => do
    let xs ← complexL k fs
    pure (.prod xs)
  | .flattened p => complex k p
  | .enriched es => do
    let xs ← complexL k es
    maxComplex xs
  | .mixedSub e _ _ => complex k e
  | .discontinuous e => complex k e
  | .tensorFE e _ _ => complex k e
  | .hdiv w => complex k w
  | .hcurl w => complex k w
  | .quadrature _ c _ => .ok (.sx (.cell c))
/-- `[e.complex for e in elements]`.
Source: `finat/tensor_product.py` 39; `finat/enriched.py` 33. -/
def complexL (k : Leaf → Sx) : List Elem → Except Err (List Cx)
  | [] => .ok []
  | e :: es => do
    let x ← complex k e
    let xs ← complexL k es
    pure (x :: xs)
end

end Elem
end FInAT
