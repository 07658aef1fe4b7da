import Verif.Py.Basic

/-!
# Reference cells

FIAT is not part of the repository. This file transcribes the small part of
`FIAT.reference_element` that FInAT relies on: the dimensions of a cell, how many
entities each dimension has, and the two flattening helpers.
-/

namespace FInAT

/-- Entity dimension: an integer on ordinary cells, a (nested) tuple on
`TensorProductCell` (FIAT `reference_element.py`, `get_dimension`). -/
inductive Dim where
  | int (n : Nat)
  | tup (ds : List Dim)
deriving Repr

namespace Dim

mutual
/-- Decidable equality of dimensions.
External; used at `finat/enriched.py` 28. -/
def decEq : (a b : Dim) → Decidable (a = b)
  | .int m, .int n => if h : m = n then isTrue (by rw [h]) else isFalse (by intro e; cases e; exact h rfl)
  | .int _, .tup _ => isFalse (by intro e; cases e)
  | .tup _, .int _ => isFalse (by intro e; cases e)
  | .tup as, .tup bs =>
    match decEqL as bs with
    | isTrue h => isTrue (by rw [h])
    | isFalse h => isFalse (by intro e; cases e; exact h rfl)
/-- Decidable equality of lists of dimensions.
External; used at `finat/enriched.py` 28. -/
def decEqL : (as bs : List Dim) → Decidable (as = bs)
  | [], [] => isTrue rfl
  | [], _ :: _ => isFalse (by intro e; cases e)
  | _ :: _, [] => isFalse (by intro e; cases e)
  | a :: as, b :: bs =>
    match decEq a b, decEqL as bs with
    | isTrue h, isTrue h' => isTrue (by rw [h, h'])
    | isFalse h, _ => isFalse (by intro e; cases e; exact h rfl)
    | _, isFalse h => isFalse (by intro e; cases e; exact h rfl)
end

instance : DecidableEq Dim := decEq

mutual
/-- `FIAT.reference_element.tuple_sum`: total dimension of a nested tuple.
External; used at `finat/cube.py` 47. -/
def total : Dim → Nat
  | .int n => n
  | .tup ds => totalL ds
/-- `tuple_sum` on the entries of a tuple.
External; used at `finat/cube.py` 47. -/
def totalL : List Dim → Nat
  | [] => 0
  | d :: ds => d.total + totalL ds
end

mutual
/-- Python's `<=` on integers and (lexicographically) on tuples. Python raises `TypeError`
when an integer meets a tuple; keys of one topology never mix the two, and the model
orders integers first.
External; used at `finat/tensor_product.py` 223. -/
def le : Dim → Dim → Bool
  | .int a, .int b => decide (a ≤ b)
  | .int _, .tup _ => true
  | .tup _, .int _ => false
  | .tup as, .tup bs => leL as bs
/-- Lexicographic comparison of tuples of dimensions.
External; used at `finat/tensor_product.py` 223. -/
def leL : List Dim → List Dim → Bool
  | [], _ => true
  | _ :: _, [] => false
  | a :: as, b :: bs => if a = b then leL as bs else le a b
end

end Dim

/-- Dofs (or other lists) attached to entities: `{dim: {entity: value}}`.
Source: `finat/tensor_product.py` 208-224. -/
abbrev EntityMap (ν : Type) := Dict Dim (Dict Nat ν)

/-- The return type of `entity_dofs()`.
Source: `finat/tensor_product.py` 60-61. -/
abbrev EntityDofs := EntityMap (List Nat)

/-- `FIAT.reference_element.flatten_entities` (transcription):
```
flattened_entities = defaultdict(list)
for key in sorted(topology_dict.keys()):
    flat_key = tuple_sum(key)
    flattened_entities[flat_key] += [v for k, v in sorted(topology_dict[key].items())]
return {dim: dict(enumerate(entities)) for dim, entities in sorted(flattened_entities.items())}
```
Called in `finat/cube.py:47,51`. The items of one dimension have distinct keys, so sorting the
items is sorting by key. -/
def flattenEntities {ν : Type} (d : EntityMap ν) : EntityMap ν :=
  let sorted := sortBy (fun a b => Dim.le a.1 b.1) d
  let flat : Dict Nat (List ν) := sorted.foldl (fun acc p =>
    let vs := (sortBy (fun a b => decide (a.1 ≤ b.1)) p.2).map Prod.snd
    acc.set p.1.total (((acc.get? p.1.total).getD []) ++ vs)) []
  (sortBy (fun a b => decide (a.1 ≤ b.1)) flat).map fun p => (.int p.1, enumFrom 0 p.2)

/-- `FIAT.reference_element.compute_unflattening_map` (transcription):
```
counter = defaultdict(int); unflattening_map = {}
for dim, entities in sorted(topology_dict.items()):
    flat_dim = tuple_sum(dim)
    for entity in entities:
        flat_entity = counter[flat_dim]; counter[flat_dim] += 1
        unflattening_map[(flat_dim, flat_entity)] = (dim, entity)
```
Called in `finat/cube.py:20`. The state is the pair (counter, map). -/
def computeUnflatteningMap {ν : Type} (d : EntityMap ν) : Dict (Nat × Nat) (Dim × Nat) :=
  let sorted := sortBy (fun a b => Dim.le a.1 b.1) d
  (sorted.foldl (fun st p =>
    p.2.foldl (fun (st : Dict Nat Nat × Dict (Nat × Nat) (Dim × Nat)) e =>
      let c := (st.1.get? p.1.total).getD 0
      (st.1.set p.1.total (c + 1), st.2.set (p.1.total, c) (p.1, e.1))) st) ([], [])).2

/-- Binomial coefficient (Pascal's recursion), used for entity counts of simplices.
External; used at `finat/enriched.py` 173-174. -/
def binom : Nat → Nat → Nat
  | _, 0 => 1
  | 0, _ + 1 => 0
  | n + 1, k + 1 => binom n k + binom n (k + 1)

/-- Reference cells known to FInAT: UFC simplices (point, interval, triangle, tetrahedron, ...),
`UFCQuadrilateral`, `UFCHexahedron` and `TensorProductCell`.
External; used at `finat/cube.py` 23-30; `finat/tensor_product.py` 35. -/
inductive Cell where
  | simplex (d : Nat)
  | quad
  | hex
  | prod (cells : List Cell)
deriving Repr

namespace Cell

mutual
/-- Decidable equality of cells (FIAT cells compare by content).
External; used at `finat/enriched.py` 28. -/
def decEq : (a b : Cell) → Decidable (a = b)
  | .simplex m, .simplex n => if h : m = n then isTrue (by rw [h]) else isFalse (by intro e; cases e; exact h rfl)
  | .quad, .quad => isTrue rfl
  | .hex, .hex => isTrue rfl
  | .prod as, .prod bs =>
    match decEqL as bs with
    | isTrue h => isTrue (by rw [h])
    | isFalse h => isFalse (by intro e; cases e; exact h rfl)
  | .simplex _, .quad | .simplex _, .hex | .simplex _, .prod _
  | .quad, .simplex _ | .quad, .hex | .quad, .prod _
  | .hex, .simplex _ | .hex, .quad | .hex, .prod _
  | .prod _, .simplex _ | .prod _, .quad | .prod _, .hex => isFalse (by intro e; cases e)
/-- Decidable equality of lists of cells.
External; used at `finat/enriched.py` 28. -/
def decEqL : (as bs : List Cell) → Decidable (as = bs)
  | [], [] => isTrue rfl
  | [], _ :: _ => isFalse (by intro e; cases e)
  | _ :: _, [] => isFalse (by intro e; cases e)
  | a :: as, b :: bs =>
    match decEq a b, decEqL as bs with
    | isTrue h, isTrue h' => isTrue (by rw [h, h'])
    | isFalse h, _ => isFalse (by intro e; cases e; exact h rfl)
    | _, isFalse h => isFalse (by intro e; cases e; exact h rfl)
end

instance : DecidableEq Cell := decEq

mutual
/-- `cell.get_spatial_dimension()`.
External; used at `finat/cube.py` 24. -/
def spatialDim : Cell → Nat
  | .simplex d => d
  | .quad => 2
  | .hex => 3
  | .prod cs => spatialDimL cs
/-- Sum of the spatial dimensions.
External; used at `finat/tensor_product.py` 101. -/
def spatialDimL : List Cell → Nat
  | [] => 0
  | c :: cs => c.spatialDim + spatialDimL cs
end

mutual
/-- `cell.get_dimension()`: an integer, or a tuple for `TensorProductCell`.
External; used at `finat/tensor_product.py` 87. -/
def dimension : Cell → Dim
  | .simplex d => .int d
  | .quad => .int 2
  | .hex => .int 3
  | .prod cs => .tup (dimensionL cs)
/-- `get_dimension` of each cell.
External; used at `finat/tensor_product.py` 87. -/
def dimensionL : List Cell → List Dim
  | [] => []
  | c :: cs => c.dimension :: dimensionL cs
end

/-- Topology of an interval: two vertices, one edge.
External; used at `finat/tensor_product.py` 209-210. -/
def lineTop : List (Dim × Nat) := [(.int 0, 2), (.int 1, 1)]

/-- `TensorProductCell` topology: the dimensions are the tuples in `itertools.product` order of the
factor dimensions, the number of entities is the product (FIAT `TensorProductCell.__init__`).
External; used at `finat/tensor_product.py` 94-95. -/
def prodTop (tops : List (List (Dim × Nat))) : List (Dim × Nat) :=
  (product tops).map fun ps => (.tup (ps.map Prod.fst), (ps.map Prod.snd).prod)

/-- `flatten_entities` on entity counts.
External; used at `finat/cube.py` 20. -/
def flattenTop (top : List (Dim × Nat)) : List (Dim × Nat) :=
  (flattenEntities (top.map fun p => (p.1, enumFrom 0 (List.replicate p.2 ())))).map
    fun p => (p.1, p.2.length)

mutual
/-- `cell.get_topology()`: dimensions in dictionary order, each with its number of entities;
the entity keys are always `0, 1, ..., n-1`.
External; used at `finat/enriched.py` 173-174; `finat/tensor_product.py` 209-210. -/
def topology : Cell → List (Dim × Nat)
  | .simplex d => (List.range (d + 1)).map fun k => (.int k, binom (d + 1) (k + 1))
  | .quad => flattenTop (prodTop [lineTop, lineTop])
  | .hex => flattenTop (prodTop [lineTop, lineTop, lineTop])
  | .prod cs => prodTop (topologyL cs)
/-- Topologies of a list of cells.
External; used at `finat/tensor_product.py` 209-210. -/
def topologyL : List Cell → List (List (Dim × Nat))
  | [] => []
  | c :: cs => c.topology :: topologyL cs
end

end Cell

end FInAT
