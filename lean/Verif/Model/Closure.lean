import Verif.Model.Elem

/-!
# Entity selection and closures
-/

namespace FInAT

/-- `TensorProductElement._factor_entity(entity)`, `finat/tensor_product.py:84-97`, for a given cell
list and entity `(entity_dim, entity_id)`; `none` is the default entity of line 87. The two asserts
are lines 91-92. `numpy.unravel_index` raises `ValueError` out of bounds. -/
def factorEntity (cells : List Cell) (entity : Option (Dim × Nat)) :
    Except Err (List (Dim × Nat)) := do
  let ent := entity.getD ((Cell.prod cells).dimension, 0)
  match ent.1 with
  | .int _ => .error .assertionError
  | .tup dims =>
    if dims.length = cells.length then
      let shape ← (cells.zip dims).mapM fun p => Dict.get p.1.topology p.2
      let ids ← unravelIndex ent.2 shape
      pure (dims.zip ids)
    else .error .assertionError

/-- The entity on which `FlattenedDimensions.basis_evaluation`/`point_evaluation` tabulate the
product, `finat/cube.py:75-84`: `self._unflatten[entity]` (`KeyError` when missing), with the default
`(spatial dimension, 0)`. `c` is the cell of the product element (line 20). -/
def flattenedEntity (c : Cell) (entity : Option (Nat × Nat)) : Except Err (Dim × Nat) :=
  (computeUnflatteningMap (c.topology.map fun p => (p.1, enumFrom 0 (List.replicate p.2 ())))).get
    (entity.getD (c.spatialDim, 0))

/-- `FiniteElementBase._entity_closure_dofs`, `finat/finiteelementbase.py:65-72`. `subs` is FIAT's
`cell.sub_entities` dictionary (not part of the repository): for every entity the list of its
sub-entities. -/
def entityClosureDofs (subs : EntityMap (List (Dim × Nat))) (d : EntityDofs) :
    Except Err EntityDofs :=
  subs.mapM fun p => do
    let ents ← p.2.mapM fun q => do
      let ls ← q.2.mapM fun x => do
        let m ← d.get x.1
        m.get x.2
      pure (q.1, sortNat ls.flatten)
    pure (p.1, ents)

/-- `entity_closure_dofs()`: computed from `entity_dofs()` in the base class
(`finat/finiteelementbase.py:65-78`); delegated to the FIAT element by `FiatElement`
(`finat/fiat_elements.py:70-71`), to the sub-element by `MixedSubElement` (`finat/mixed.py:55-56`), to
the wrapped element by the H(div) and H(curl) wrappers (`finat/hdivcurl.py:44-45`). `fiat l` is the
dof table of the FIAT element behind the leaf, from which FIAT computes the closure as the base class
does; it is not `entity_dofs()` of the leaf where a class overrides this method
(`finat/bell.py:73-74`, `hct.py:93-94`, `aw.py:74-79`, `aw.py:125-130`, `mtw.py:42-43`,
`piola_mapped.py:113-114`). `subs c` is FIAT's `c.sub_entities`. -/
def closureDofs (fiat : Leaf → EntityDofs) (subs : Cell → EntityMap (List (Dim × Nat))) :
    Elem → Except Err EntityDofs
  | .leaf l => entityClosureDofs (subs l.cell) (fiat l)
  | .mixedSub e _ _ => closureDofs fiat subs e
  | .hdiv w => closureDofs fiat subs w
  | .hcurl w => closureDofs fiat subs w
  | e => do
    let c ← e.cell
    let d ← e.entityDofs
    entityClosureDofs (subs c) d

end FInAT
