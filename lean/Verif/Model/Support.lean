import Verif.Model.Tabulate
import Verif.Model.Quadrature
import Mathlib.Algebra.Field.Defs

/-!
# `entity_support_dofs`
-/

namespace FInAT

mutual
/-- FIAT's `cell.construct_subelement(dimension)`: the reference cell of the entities of a dimension
(`ValueError` for dimensions the cell does not have; product cells construct factor by factor).
External; used at `finat/finiteelementbase.py` 87. -/
def Cell.subelement : Cell → Dim → Except Err Cell
  | .simplex d, .int k => if k ≤ d then .ok (.simplex k) else .error .valueError
  | .quad, .int 0 => .ok (.simplex 0)
  | .quad, .int 1 => .ok (.simplex 1)
  | .quad, .int 2 => .ok .quad
  | .hex, .int 0 => .ok (.simplex 0)
  | .hex, .int 1 => .ok (.simplex 1)
  | .hex, .int 2 => .ok .quad
  | .hex, .int 3 => .ok .hex
  | .prod cs, .tup ds => do
    let l ← Cell.subelementL cs ds
    pure (.prod l)
  | _, _ => .error .valueError
/-- `TensorProductCell(*[c.construct_subelement(d) for c, d in zip(self.cells, dimension)])`.
External; used at `finat/finiteelementbase.py` 87. -/
def Cell.subelementL : List Cell → List Dim → Except Err (List Cell)
  | c :: cs, d :: ds => do
    let x ← Cell.subelement c d
    let xs ← Cell.subelementL cs ds
    pure (x :: xs)
  | [], [] => .ok []
  | _, _ => .error .valueError
end

mutual
/-- Shape of `numpy.array(degree)`: `ValueError` for ragged tuples.
Source: `finat/finiteelementbase.py` 88. -/
def DegTree.arrayShape : DegTree → Except Err (List Nat)
  | .leaf _ => .ok []
  | .node ts => do
    let ss ← DegTree.arrayShapeL ts
    match ss with
    | [] => pure [0]
    | s :: rest => if rest.all (fun t => decide (t = s)) then pure (ts.length :: s) else .error .valueError
/-- Shapes of the entries.
Source: `finat/finiteelementbase.py` 88. -/
def DegTree.arrayShapeL : List DegTree → Except Err (List (List Nat))
  | [] => .ok []
  | t :: ts => do
    let s ← DegTree.arrayShape t
    let ss ← DegTree.arrayShapeL ts
    pure (s :: ss)
end

mutual
/-- The entries of a degree doubled.
Source: `finat/finiteelementbase.py` 88. -/
def DegTree.twice : DegTree → Degree
  | .leaf n => .int (2 * n)
  | .node ts => .tup (DegTree.twiceL ts)
/-- ... for the entries of a tuple.
Source: `finat/finiteelementbase.py` 88. -/
def DegTree.twiceL : List DegTree → List Degree
  | [] => []
  | t :: ts => t.twice :: DegTree.twiceL ts
end

/-- `(2*numpy.array(self.degree)).tolist()`, `finat/finiteelementbase.py:88`. -/
def DegTree.double (t : DegTree) : Except Err Degree := do
  let _ ← t.arrayShape
  pure t.twice

variable {K : Type} [Field K] [LinearOrder K]

/-- `eps = 1.e-8`, `finat/finiteelementbase.py:90`. -/
def supportEps : K := 1 / 10 ^ 8

/-- The expression whose entries are the integrals of the squares of the basis functions on an entity,
`finat/finiteelementbase.py:94-103`. -/
def supportExpr (I : Interp K (PSet K)) (e : Elem) (beta zeta : List Index) (q : QRule K) (ent : Dim × Nat) :
    M (Gem K) := do
  let tab ← evaluate I e 0 q.pointSet (some ent)
  let vals ← match tab with
    | [p] => pure p.2
    | _ => liftE (.error .valueError)
  let x ← mkIndexed vals ((beta ++ zeta).map .free)
  let y ← mkIndexed vals ((beta ++ zeta).map .free)
  let xy ← mkProduct x y
  let s ← mkIndexSum xy zeta
  let w ← q.weightExpr
  let sw ← mkProduct s w
  let i ← mkIndexSum sw q.pointSet.indices
  mkComponentTensor i beta

/-- The dofs listed for one entity, `finat/finiteelementbase.py:94-106`: tabulate on the entity,
integrate the squares of the basis functions, keep the dofs whose integral exceeds `eps`. GEM's
evaluator (`gem.interpreter.evaluate`) is `Gem.eval`; the assertion of line 105, that the result has no free
indices, always holds (`C96_support`) and is left out. -/
def supportOn (I : Interp K (PSet K)) (e : Elem) (beta zeta : List Index) (q : QRule K) (ent : Dim × Nat) :
    M (List Nat) := do
  let t ← supportExpr I e beta zeta q ent
  let ints := (ndindex (beta.map Index.extent)).map fun v => t.eval (fun _ => 0) v
  pure (((enumFrom 0 ints).filter fun p => decide (supportEps < p.2)).map Prod.fst)

/-- `FiniteElementBase._entity_support_dofs`, `finat/finiteelementbase.py:80-109`. The keys of
`cell.sub_entities` are those of the cell's topology. -/
def baseSupport (F : FiatQuad K) (I : Interp K (PSet K)) (e : Elem) : M EntityDofs := do
  let c ← liftE e.cell
  c.topology.mapM fun p => do
    let beta ← freshIndices e.indexShape
    let vs ← liftE e.valueShape
    let zeta ← freshIndices vs
    let sub ← liftE (c.subelement p.1)
    let deg ← liftE e.degree
    let deg2 ← liftE deg.double
    let q ← makeQuadrature F "default" sub deg2
    let d ← liftE e.entityDofs
    let ents ← liftE (d.get p.1)
    let result ← ents.keys.mapM fun f => do
      let l ← supportOn I e beta zeta q (p.1, f)
      pure (f, l)
    pure (p.1, result)

mutual
/-- `entity_support_dofs()`: `finat/finiteelementbase.py:80-115` (FIAT elements, `TensorFiniteElement`,
`DiscontinuousElement`, quadrature elements), overridden in `tensor_product.py:56-58`,
`enriched.py:59-62`, `cube.py:49-51`, `mixed.py:58-59` and `hdivcurl.py:47-48`. -/
def supportDofs (F : FiatQuad K) (I : Interp K (PSet K)) : Elem → M EntityDofs
  | .leaf l => baseSupport F I (.leaf l)
  | .tensorProduct fs => do
    let cs ← liftE (Elem.cellL fs)
    let ds ← supportDofsL F I fs
    liftE (productise (Elem.spaceDimL fs) (cs.map fun c => c.topology.map Prod.fst) ds)
  | .flattened p => do
    let d ← supportDofs F I p
    pure (flattenEntities d)
  | .enriched es => do
    let c ← liftE (Elem.enriched es).cell
    let ds ← supportDofsL F I es
    liftE (concatenateEntityDofs c.topology (Elem.spaceDimL es) ds)
  | .mixedSub e _ _ => supportDofs F I e
  | .discontinuous e => baseSupport F I (.discontinuous e)
  | .tensorFE e shape transpose => baseSupport F I (.tensorFE e shape transpose)
  | .hdiv w => supportDofs F I w
  | .hcurl w => supportDofs F I w
  | .quadrature r c ext => baseSupport F I (.quadrature r c ext)
/-- `[e.entity_support_dofs() for e in elements]`.
Source: `finat/enriched.py` 177; `finat/tensor_product.py` 212-213. -/
def supportDofsL (F : FiatQuad K) (I : Interp K (PSet K)) : List Elem → M (List EntityDofs)
  | [] => pure []
  | e :: es => do
    let d ← supportDofs F I e
    let ds ← supportDofsL F I es
    pure (d :: ds)
end

/-- `entity_support_dofs(elem, entity_dim)`, `finat/finiteelementbase.py:283-290`. -/
def entitySupportDofs (F : FiatQuad K) (I : Interp K (PSet K)) (e : Elem) (dim : Dim) :
    M (Dict Nat (List Nat)) := do
  let d ← supportDofs F I e
  liftE (d.get dim)

end FInAT
