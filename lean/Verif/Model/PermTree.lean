import Verif.Model.Perms
import Verif.Model.Closure

/-!
# Entity permutations of element trees
-/

namespace FInAT

/-- What comes from FIAT (not part of the repository): `leaf l` is `entity_permutations()` of the FIAT
element behind a leaf (`NotImplementedError` for some, `finat/fiat_elements.py:416-467`); `axes cells dim
shape` are the extrinsic orientations of an entity of a product cell, each with the axis permutation it stands for,
for factors with `shape` dofs on the entity (the first is `0`, no exchange of axes); `flat dim o` is the integer
orientation of a flattened entity.
Source: `finat/fiat_elements.py` 73-75; `finat/tensor_product.py` 227-300; `finat/cube.py` 56-58. -/
structure FiatPerms where
  leaf : Leaf → Except Err PermMap
  axes : List Cell → List Dim → List Nat → List (Nat × List Nat)
  flat : Dim → Dim → Dim

/-- The multi-index `i` with `i[sigma[k]] = v[k]`.
Source: `finat/tensor_product.py` 243-257. -/
def scatter (sigma v : List Nat) : List Nat :=
  (List.range sigma.length).map fun m => v.getD (sigma.idxOf m) 0

/-- The permutation list of one orientation of an entity of a product: the numbers `0, 1, ...` arranged
in an array with the lengths of the lists `ps` as shape, axes permuted by `sigma`, and then axis `k` permuted by `ps[k]`, in row-major order
(`arange(size).reshape(shape).transpose(sigma)[ix_(*ps)].reshape(-1)`). Axes of different lengths are not exchanged
(numpy would raise). External (FIAT's
`make_entity_permutations_tensorproduct`); agrees with the table printed in the docstring.
Used at `finat/tensor_product.py` 297, table at 262-284. -/
def tensorPerm (sigma : List Nat) (ps : List (List Nat)) : List Nat :=
  (ndindex (ps.map List.length)).map fun j =>
    ravel (ps.map List.length) (scatter sigma (List.zipWith (fun (p : List Nat) i => p.getD i 0) ps j))

/-- `make_entity_permutations_tensorproduct(cells, dim, o_p_maps)`: one entry for every extrinsic orientation and
every combination of orientations of the factors, under the key `(eo, o_1, ..., o_n)`. External; called at
`finat/tensor_product.py` 297. -/
def makeTensorPerms (F : FiatPerms) (cells : List Cell) (dim : List Dim) (ops : List (Dict Dim (List Nat))) :
    Dict Dim (List Nat) :=
  let shape := ops.map fun d => (d.values.headD []).length
  (F.axes cells dim shape).flatMap fun ax =>
    (product ops).map fun sel =>
      (.tup (.int ax.1 :: sel.map Prod.fst), tensorPerm ax.2 (sel.map Prod.snd))

/-- One dimension tuple of `compose_permutations`, `finat/tensor_product.py:291-299`:
```
e_o_p_maps = [fe.entity_permutations[d] for fe, d in zip(factors, dim)]
for e_tuple in product(*[sorted(e_o_p_map) for e_o_p_map in e_o_p_maps]):
    o_p_maps = [e_o_p_map[e] for e_o_p_map, e in zip(e_o_p_maps, e_tuple)]
    o_tuple_perm_map = make_entity_permutations_tensorproduct(cells, dim, o_p_maps)
    dim_permutations.append((e_tuple, o_tuple_perm_map))
permutations[dim] = dict(enumerate(v for k, v in sorted(dim_permutations)))
```
The entity tuples are distinct, so that `sorted` compares nothing else. -/
def composePermsDim (F : FiatPerms) (cells : List Cell) (ms : List PermMap) (dim : List Dim) :
    Except Err (Dict Nat (Dict Dim (List Nat))) := do
  let eops ← (ms.zip dim).mapM fun p => p.1.get p.2
  let l ← (product (eops.map fun t => sortNat t.keys)).mapM fun et => do
    let ops ← (eops.zip et).mapM fun p => p.1.get p.2
    pure (et, makeTensorPerms F cells dim ops)
  pure (enumFrom 0 ((sortBy (fun a b => lexLe a.1 b.1) l).map Prod.snd))

/-- `compose_permutations(factors)`, `finat/tensor_product.py:227-300`; the arguments are the factor
cells and the dictionaries `fe.entity_permutations`. -/
def composePermutations (F : FiatPerms) (cells : List Cell) (ms : List PermMap) : Except Err PermMap :=
  (product (cells.map fun c => c.topology.map Prod.fst)).foldlM (fun acc dim => do
    let ents ← composePermsDim F cells ms dim
    pure (acc.set (.tup dim) ents)) []

/-- FIAT's `flatten_permutations` (transcription): entities are renumbered as in `flatten_entities`, orientations become
integers. External; called at `finat/cube.py` 58. -/
def flattenPermutations (F : FiatPerms) (m : PermMap) : PermMap :=
  flattenEntities (m.map fun p => (p.1, p.2.map fun q =>
    (q.1, q.2.foldl (fun acc r => acc.set (F.flat p.1 r.1) r.2) [])))

/-- Python's `==` on two nested dictionaries: the same keys with the same lists, in any order.
Source: `finat/discontinuous.py` 48. -/
def sameDofs (d d' : EntityDofs) : Bool :=
  decide (d.length = d'.length) && d.all fun p => match d'.get? p.1 with
    | none => false
    | some ents => decide (p.2.length = ents.length) &&
        p.2.all fun q => decide (ents.get? q.1 = some q.2)

mutual
/-- `entity_permutations`: `finat/fiat_elements.py:73-75`, `finat/tensor_product.py:72-74`,
`finat/cube.py:56-58`, `finat/enriched.py:53-57`, `finat/hdivcurl.py:40-42`, `finat/discontinuous.py:43-51`.
Parts of mixed elements, tensor-valued and quadrature elements inherit the property that raises
(`finat/finiteelementbase.py:40-63`). `fiat` and `subs` as for `closureDofs`. -/
def entityPerms (F : FiatPerms) (fiat : Leaf → EntityDofs) (subs : Cell → EntityMap (List (Dim × Nat))) :
    Elem → Except Err PermMap
  | .leaf l => F.leaf l
  | .tensorProduct fs => do
    let cs ← Elem.cellL fs
    let ms ← entityPermsL F fiat subs fs
    composePermutations F cs ms
  | .flattened p => do
    let m ← entityPerms F fiat subs p
    pure (flattenPermutations F m)
  | .enriched es => do
    let ms ← entityPermsL F fiat subs es
    pure (concatenateEntityPermutations ms)
  | .hdiv w => entityPerms F fiat subs w
  | .hcurl w => entityPerms F fiat subs w
  | .discontinuous e => do
    let d ← e.entityDofs
    let cl ← closureDofs fiat subs e
    if sameDofs d cl then entityPerms F fiat subs e else .error .notImplemented
  | .mixedSub _ _ _ => .error .notImplemented
  | .tensorFE _ _ _ => .error .notImplemented
  | .quadrature _ _ _ => .error .notImplemented
/-- `[e.entity_permutations for e in elements]`.
Source: `finat/tensor_product.py` 293; `finat/enriched.py` 194-195. -/
def entityPermsL (F : FiatPerms) (fiat : Leaf → EntityDofs) (subs : Cell → EntityMap (List (Dim × Nat))) :
    List Elem → Except Err (List PermMap)
  | [] => .ok []
  | e :: es => do
    let m ← entityPerms F fiat subs e
    let ms ← entityPermsL F fiat subs es
    pure (m :: ms)
end

end FInAT
