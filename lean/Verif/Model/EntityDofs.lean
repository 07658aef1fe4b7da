import Verif.Model.Cell

/-!
# Entity dof dictionaries

Models of the functions that build `entity_dofs()` dictionaries. Each takes the data the Python
function reads from its element arguments.
-/

namespace FInAT

/-- Python's `<=` on the pairs `(tuple_ei, vs)` sorted in `finat/tensor_product.py:223`. -/
def pairLe (a b : List Nat × List Nat) : Bool :=
  if a.1 = b.1 then lexLe a.2 b.2 else lexLe a.1 b.1

/-- `productise` for one dimension tuple `dim`, `finat/tensor_product.py:211-223`:
```
topds = [method(fe)[d] for fe, d in zip(factors, dim)]
for tuple_ei in product(*[sorted(topd) for topd in topds]):
    tuple_vs = list(product(*[topd[ei] for topd, ei in zip(topds, tuple_ei)]))
    if tuple_vs:
        vs = list(numpy.ravel_multi_index(numpy.transpose(tuple_vs), shape))
        dim_dofs.append((tuple_ei, vs))
    else:
        dim_dofs.append((tuple_ei, []))
dofs[dim] = dict(enumerate(v for k, v in sorted(dim_dofs)))
```
The two branches coincide: raveling no tuples gives `[]`. -/
def productiseDim (shape : List Nat) (dofss : List EntityDofs) (dim : List Dim) :
    Except Err (Dict Nat (List Nat)) := do
  let topds ← (dofss.zip dim).mapM fun p => p.1.get p.2
  let dimDofs ← (product (topds.map fun t => sortNat t.keys)).mapM fun ei => do
    let lists ← (topds.zip ei).mapM fun p => p.1.get p.2
    let vs ← (product lists).mapM fun t => ravelMultiIndex t shape
    pure (ei, vs)
  pure (enumFrom 0 ((sortBy pairLe dimDofs).map Prod.snd))

/-- `productise(factors, method)`, `finat/tensor_product.py:202-224`. `shape` are the factor space
dimensions (line 207), `topKeys` the dimension keys of the factor cells (lines 209-210), `dofss` the
dictionaries `method(fe)`. -/
def productise (shape : List Nat) (topKeys : List (List Dim)) (dofss : List EntityDofs) :
    Except Err EntityDofs :=
  (product topKeys).foldlM (fun acc dim => do
    let ents ← productiseDim shape dofss dim
    pure (acc.set (.tup dim) ents)) []

/-- `{dim: {i: [] for i in entities} for dim, entities in topology.items()}`,
`finat/enriched.py:173-174`, `finat/discontinuous.py:34-35`, `finat/quadrature_element.py:68-69`. -/
def emptyDofs (top : List (Dim × Nat)) : EntityDofs :=
  top.map fun p => (p.1, enumFrom 0 (List.replicate p.2 []))

/-- `entity_dofs[dim][ent] += l` (`KeyError` when a key is missing).
Source: `finat/enriched.py` 180. -/
def addDofs (d : EntityDofs) (dim : Dim) (ent : Nat) (l : List Nat) : Except Err EntityDofs := do
  let ents ← d.get dim
  let old ← ents.get ent
  pure (d.set dim (ents.set ent (old ++ l)))

/-- The inner two loops of `concatenate_entity_dofs`, `finat/enriched.py:178-180`, for one
sub-element dictionary `d` and its offset. -/
def concatenateOne (acc : EntityDofs) (offset : Nat) (d : EntityDofs) : Except Err EntityDofs :=
  d.foldlM (fun acc p =>
    p.2.foldlM (fun acc q => addDofs acc p.1 q.1 (q.2.map (offset + ·))) acc) acc

/-- `concatenate_entity_dofs(ref_el, elements, method)`, `finat/enriched.py:163-181`. `dims` are the
space dimensions of the elements, `dofss` the dictionaries `method(e)`. -/
def concatenateEntityDofs (top : List (Dim × Nat)) (dims : List Nat) (dofss : List EntityDofs) :
    Except Err EntityDofs :=
  let offsets := cumsum0 dims
  (offsets.zip dofss).foldlM (fun acc p => concatenateOne acc p.1 p.2) (emptyDofs top)

/-- The generator `expand` of `TensorFiniteElement._entity_dofs`,
`finat/tensorfiniteelement.py:78-88`. -/
def expandDofs (transpose : Bool) (ndof spaceDim : Nat) (dofs : List Nat) : List Nat :=
  if transpose then
    (List.range ndof).flatMap fun i => dofs.map fun v => v + i * spaceDim
  else
    dofs.flatMap fun v => (List.range ((v + 1) * ndof - v * ndof)).map (v * ndof + ·)

/-- `TensorFiniteElement._entity_dofs`, `finat/tensorfiniteelement.py:72-93`; `keys` are the
dimension keys of the cell topology. `range(a, b)` is modelled as `a + i`, `i < b - a`. -/
def tensorFEDofs (keys : List Dim) (base : EntityDofs) (ndof spaceDim : Nat) (transpose : Bool) :
    Except Err EntityDofs :=
  keys.foldlM (fun acc dim => do
    let ents ← base.get dim
    pure (acc.set dim (ents.map fun p => (p.1, expandDofs transpose ndof spaceDim p.2)))) []

/-- `DiscontinuousElement._entity_dofs`, `finat/discontinuous.py:32-38`:
`result[cell_dimension][0].extend(range(self.space_dimension()))`. -/
def discontinuousDofs (top : List (Dim × Nat)) (dim : Dim) (n : Nat) : Except Err EntityDofs :=
  addDofs (emptyDofs top) dim 0 (List.range n)

/-- `QuadratureElement._entity_dofs`, `finat/quadrature_element.py:65-71`:
`entity_dofs[self.cell.get_dimension()] = {0: list(range(self.space_dimension()))}`. -/
def quadratureDofs (top : List (Dim × Nat)) (dim : Dim) (n : Nat) : EntityDofs :=
  (emptyDofs top).set dim [(0, List.range n)]

end FInAT
