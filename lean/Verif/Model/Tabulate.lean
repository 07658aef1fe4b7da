import Verif.Model.PointSet
import Verif.Model.Closure

/-!
# `basis_evaluation` and `point_evaluation` of composite elements

The GEM expressions built by the composite elements. Leaves (FIAT elements, quadrature elements, ...)
are tabulated by an interpretation, see `Verif/Model/FiatTab.lean` for FIAT elements.
`coordinate_mapping` travels with the points: enriched, mixed, discontinuous and tensor-valued elements
pass it on, the others drop it.
-/

namespace FInAT

variable {K : Type} [CommRing K]

/-! ### H(div) and H(curl) transformers -/

/-- One component of the list returned by a transformer of `finat/hdivcurl.py:151-225`:
`gem.Zero()`, or `gem.Indexed(v, ix)` (`v` itself for `ix = ()`), possibly multiplied by
`gem.Literal(-1)`. -/
inductive Comp where
  | zero
  | entry (neg : Bool) (ix : List Nat)
deriving DecidableEq, Repr

/-- `select_hdiv_transformer(element)`, `finat/hdivcurl.py:151-188`. `cell.get_shape() == LINE` holds
for the interval. -/
def selectHdiv (fs : List Elem) : Except Err (List Comp) :=
  match fs with
  | [a, b] => do
    let cb ← b.cell
    if cb ≠ .simplex 1 then .error .assertionError
    else
      let ka ← a.formdegree
      let kb ← b.formdegree
      match ka, kb with
      | some 0, some 1 => .ok [.entry true [], .zero]
      | some 1, some 0 => .ok [.zero, .entry false []]
      | some 2, some 0 => .ok [.zero, .zero, .entry false []]
      | some 1, some 1 =>
        match (Elem.tensorProduct fs).mapping with
        | some .contravariantPiola => .ok [.entry false [0], .entry false [1], .zero]
        | some .covariantPiola => .ok [.entry false [1], .entry true [0], .zero]
        | _ => .error .assertionError
      | _, _ => .error .assertionError
  | _ => .error .assertionError

/-- `select_hcurl_transformer(element)`, `finat/hdivcurl.py:191-225`. -/
def selectHcurl (fs : List Elem) : Except Err (List Comp) :=
  match fs with
  | [a, b] => do
    let cb ← b.cell
    if cb ≠ .simplex 1 then .error .assertionError
    else
      let c ← (Elem.tensorProduct fs).cell
      let ka ← a.formdegree
      let kb ← b.formdegree
      match (Elem.tensorProduct fs).mapping with
      | some .affine =>
        match ka, kb with
        | some 1, some 0 => .ok [.entry false [], .zero]
        | some 0, some 1 => .ok (List.replicate (c.spatialDim - 1) .zero ++ [.entry false []])
        | _, _ => .error .assertionError
      | some .covariantPiola => .ok [.entry false [0], .entry false [1], .zero]
      | some .contravariantPiola => .ok [.entry true [1], .entry false [0], .zero]
      | _ => .error .assertionError
  | _ => .error .assertionError

/-- `HDivElement(wrappee)`, `finat/hdivcurl.py:98-108`: rejects unknown form degrees and forms of the
wrong degree with `ValueError`. -/
def mkHDiv (w : Elem) : Except Err Elem :=
  match w with
  | .tensorProduct fs => do
    let ks ← Elem.formdegreeL fs
    if ks.contains none then .error .valueError
    else
      let c ← w.cell
      if ((ks.filterMap id).sum : Int) ≠ (c.spatialDim : Int) - 1 then .error .valueError
      else
        let _ ← selectHdiv fs
        pure (.hdiv w)
  | _ => .error .assertionError

/-- `HCurlElement(wrappee)`, `finat/hdivcurl.py:126-136`. -/
def mkHCurl (w : Elem) : Except Err Elem :=
  match w with
  | .tensorProduct fs => do
    let ks ← Elem.formdegreeL fs
    if ks.contains none then .error .valueError
    else if (ks.filterMap id).sum ≠ 1 then .error .valueError
    else
      let _ ← selectHcurl fs
      pure (.hcurl w)
  | _ => .error .assertionError

/-- The factors of a wrapped element (`wrappee.factors`); the constructors assert that the wrapped
element is a tensor product.
Source: `finat/hdivcurl.py` 99, 153. -/
def Elem.factorsOf : Elem → List Elem
  | .tensorProduct fs => fs
  | _ => []

/-- The expression of one transformer component. With `ix = ()` Python uses `v` itself; `mkIndexed`
returns `v` when it is scalar and raises otherwise (in Python `ListTensor`/`Indexed` would raise).
Source: `finat/hdivcurl.py` 164-184, 205-223. -/
def compExpr (v : Gem K) : Comp → M (Gem K)
  | .zero => pure (.zero [])
  | .entry neg ix => do
    let x ← mkIndexed v (ix.map .fixed)
    if neg then mkProduct (.literal [] fun _ => -1) x else pure x

/-! ### Merging tables -/

/-- `WrapperElementBase._transform_evaluation`, `finat/hdivcurl.py:61-71`, for one table. -/
def promoteWrapped (comps : List Comp) (beta zeta : List Index) (table : Gem K) : M (Gem K) := do
  let v ← partialIndexed table (beta.map .free)
  let es ← comps.mapM (compExpr v)
  let u ← mkListTensor [comps.length] es
  let x ← mkIndexed u (zeta.map .free)
  mkComponentTensor x (beta ++ zeta)

/-- `MixedSubElement._transform`, `finat/mixed.py:72-76`: a list of `size` zeros, overwritten from
`offset` with the entries of `v` in row-major order. The write beyond the end (`IndexError`) is
excluded by the constructor's assertion; the model's `List.set` would ignore it. -/
def mixedTransform (valueShape : List Nat) (size offset : Nat) (v : Gem K) : M (List (Gem K)) := do
  let entries ← (ndindex valueShape).mapM fun z => mkIndexed v (z.map .fixed)
  pure ((enumFrom 0 entries).foldl (fun u p => u.set (offset + p.1) p.2)
    (List.replicate size (.zero [])))

/-- `MixedSubElement._transform_evaluation`, `finat/mixed.py:78-88`, for one table. -/
def promoteMixed (valueShape : List Nat) (size offset : Nat) (beta zeta : List Index) (table : Gem K) :
    M (Gem K) := do
  let v ← partialIndexed table (beta.map .free)
  let es ← mixedTransform valueShape size offset v
  let u ← mkListTensor [size] es
  let x ← mkIndexed u (zeta.map .free)
  mkComponentTensor x (beta ++ zeta)

/-- `{alpha: f(table) for alpha, table in tab.items()}`.
Source: `finat/hdivcurl.py` 70-71; `finat/mixed.py` 87-88. -/
def mapTab (f : Gem K → M (Gem K)) (tab : Tab K) : M (Tab K) :=
  tab.mapM fun p => do
    let t ← f p.2
    pure (p.1, t)

/-- `TensorFiniteElement._tensorise`, `finat/tensorfiniteelement.py:127-151`. -/
def tensorise (baseIndexShape baseValueShape shape : List Nat) (transpose : Bool) (tab : Tab K) :
    M (Tab K) := do
  let scalarI ← freshIndices baseIndexShape
  let scalarVI ← freshIndices baseValueShape
  let tensorI ← freshIndices shape
  let tensorVI ← freshIndices shape
  let deltas ← reduceProduct ((tensorI.zip tensorVI).map fun p => .delta p.1 p.2)
  let ordering := if transpose then tensorI ++ scalarI ++ tensorVI ++ scalarVI
    else scalarI ++ tensorI ++ tensorVI ++ scalarVI
  mapTab (fun e => do
    let x ← mkIndexed e ((scalarI ++ scalarVI).map .free)
    let y ← mkProduct deltas x
    mkComponentTensor y ordering) tab

/-- The table merged for one derivative by `EnrichedElement._compose_evaluations`,
`finat/enriched.py:98-112`. `idxShapes` are the index shapes of the sub-elements. -/
def mergeEnriched (idxShapes : List (List Nat)) (valueShape : List Nat) (total : Nat)
    (tables : List (Gem K)) : M (Gem K) := do
  let zeta ← freshIndices valueShape
  let tensors ← (idxShapes.zip tables).mapM fun p => do
    let betai ← freshIndices p.1
    let x ← mkIndexed p.2 ((betai ++ zeta).map .free)
    mkComponentTensor x betai
  let beta ← freshIndices [total]
  let x ← mkIndexed (.concatenate tensors) (beta.map .free)
  mkComponentTensor x (beta ++ zeta)

/-- `EnrichedElement._compose_evaluations`, `finat/enriched.py:95-114`: all tables must have the same
set of keys. The iteration order of the resulting dictionary is that of a Python `frozenset`; the
model uses the order of the first table. -/
def composeEnriched (idxShapes : List (List Nat)) (valueShape : List Nat) (total : Nat)
    (tabs : List (Tab K)) : M (Tab K) :=
  match tabs with
  | [] => liftE (.error .valueError)
  | t :: ts =>
    if ts.all (fun t' => (t'.keys.all fun k => decide (k ∈ t.keys)) && (t.keys.all fun k => decide (k ∈ t'.keys))) then
      t.keys.mapM fun k => do
        let tables ← liftE (tabs.mapM fun t' => t'.get k)
        let e ← mergeEnriched idxShapes valueShape total tables
        pure (k, e)
    else liftE (.error .valueError)

/-- The table for one derivative `Delta` in `TensorProductElement._merge_evaluations`,
`finat/tensor_product.py:123-137`. -/
def mergeProduct (dims : List Nat) (alphas zetas : List (List Index)) (frs : List (Tab K))
    (Delta : List Nat) : M (Gem K) := do
  let deltas := splitLens dims Delta
  let scalars ← (frs.zip (deltas.zip (alphas.zip zetas))).mapM fun p => do
    let t ← liftE (p.1.get p.2.1)
    mkIndexed t ((p.2.2.1 ++ p.2.2.2).map .free)
  let e ← reduceProduct scalars
  mkComponentTensor e (alphas ++ zetas).flatten

/-- `max` of a list of integers; `ValueError` when there are none.
Source: `finat/tensor_product.py` 104. -/
def maxE : List Nat → Except Err Nat
  | [] => .error .valueError
  | l => .ok (maxList l)

/-- `TensorProductElement._merge_evaluations`, `finat/tensor_product.py:99-138`. `dims` are the
spatial dimensions of the factor cells. -/
def mergeEvaluations (dims : List Nat) (idxShapes valShapes : List (List Nat)) (frs : List (Tab K)) :
    M (Tab K) := do
  let order ← liftE (maxE (frs.flatMap fun t => t.keys.map List.sum))
  let alphas ← idxShapes.mapM freshIndices
  let zetas ← valShapes.mapM freshIndices
  ((List.range (order + 1)).flatMap (mis dims.sum)).foldlM (fun acc Delta => do
    let e ← mergeProduct dims alphas zetas frs Delta
    pure (acc.set Delta e)) []

/-! ### The element tree -/

/-- What a tabulation method needs besides the tree: how points are split along the factors of a
tensor product and how leaves (FIAT elements, quadrature elements) are tabulated at points of type
`P`. `forget` drops the coordinate mapping from the arguments; `factor` does so as well
(`tensor_product.py` 146-147). There are three instances: `basis_evaluation` (point sets,
`factor_point_set`) without and with a coordinate mapping and `point_evaluation` (point expressions);
all other steps of the methods are the same.
Source: `finat/tensor_product.py` 140-172; `finat/cube.py` 78; `finat/hdivcurl.py` 74. -/
structure Interp (K P : Type) where
  factor : List Cell → List Dim → P → M (List P)
  forget : P → P
  leafTab : Leaf → Nat → P → Option (Dim × Nat) → M (Tab K)
  quadTab : Nat → Cell → List Nat → Nat → P → Option (Dim × Nat) → M (Tab K)

/-- The product entity for `FlattenedDimensions`, `finat/cube.py:75-84`: the default entity needs the
cell of the flattened element, an entity with a tuple dimension is not a key. -/
def unflattenEntity (p : Elem) (entity : Option (Dim × Nat)) : Except Err (Dim × Nat) := do
  let c ← p.cell
  match entity with
  | none => do
    let cf ← (Elem.flattened p).cell
    flattenedEntity c (some (cf.spatialDim, 0))
  | some (.int t, k) => flattenedEntity c (some (t, k))
  | some (.tup _, _) => .error .keyError

variable {P : Type}

mutual
/-- `basis_evaluation(order, ps, entity)` and `point_evaluation(order, point, entity)`:
`finat/tensor_product.py:140-172`, `cube.py:67-84`, `enriched.py:116-141`, `mixed.py:90-96`,
`discontinuous.py:68-72`, `tensorfiniteelement.py:112-125`, `hdivcurl.py:73-79`. -/
def evaluate (I : Interp K P) : Elem → Nat → P → Option (Dim × Nat) → M (Tab K)
  | .leaf l, order, ps, entity => I.leafTab l order ps entity
  | .tensorProduct fs, order, ps, entity => do
    let cs ← liftE (Elem.cellL fs)
    let ents ← liftE (factorEntity cs entity)
    let pss ← I.factor cs (ents.map Prod.fst) ps
    let frs ← evaluateZip I fs order pss ents
    let vs ← liftE (Elem.valueShapeL fs)
    mergeEvaluations (cs.map Cell.spatialDim) (Elem.indexShapeL fs) vs frs
  | .flattened p, order, ps, entity => do
    let ent ← liftE (unflattenEntity p entity)
    evaluate I p order (I.forget ps) (some ent)
  | .enriched es, order, ps, entity => do
    let tabs ← evaluateL I es order ps entity
    let vs ← liftE (Elem.enriched es).valueShape
    composeEnriched (Elem.indexShapeL es) vs (Elem.spaceDimL es).sum tabs
  | .mixedSub e size offset, order, ps, entity => do
    let core ← evaluate I e order ps entity
    let beta ← freshIndices e.indexShape
    let zeta ← freshIndices [size]
    let vs ← liftE e.valueShape
    mapTab (promoteMixed vs size offset beta zeta) core
  | .discontinuous e, order, ps, entity => evaluate I e order ps entity
  | .tensorFE e shape transpose, order, ps, entity => do
    let tab ← evaluate I e order ps entity
    let vs ← liftE e.valueShape
    tensorise e.indexShape vs shape transpose tab
  | .hdiv w, order, ps, entity => do
    let core ← evaluate I w order (I.forget ps) entity
    let comps ← liftE (selectHdiv w.factorsOf)
    let c ← liftE w.cell
    let beta ← freshIndices w.indexShape
    let zeta ← freshIndices [c.spatialDim]
    mapTab (promoteWrapped comps beta zeta) core
  | .hcurl w, order, ps, entity => do
    let core ← evaluate I w order (I.forget ps) entity
    let comps ← liftE (selectHcurl w.factorsOf)
    let c ← liftE w.cell
    let beta ← freshIndices w.indexShape
    let zeta ← freshIndices [c.spatialDim]
    mapTab (promoteWrapped comps beta zeta) core
  | .quadrature r c ext, order, ps, entity => I.quadTab r c ext order ps entity
/-- `[fe.basis_evaluation(order, ps_, e) for fe, ps_, e in zip(self.factors, ps_factors, entities)]`,
`finat/tensor_product.py:146-147,169-170`. -/
def evaluateZip (I : Interp K P) : List Elem → Nat → List P → List (Dim × Nat) → M (List (Tab K))
  | f :: fs, order, p :: ps, e :: es => do
    let t ← evaluate I f order p (some e)
    let ts ← evaluateZip I fs order ps es
    pure (t :: ts)
  | _, _, _, _ => pure []
/-- `[element.basis_evaluation(order, ps, entity) for element in self.elements]`,
`finat/enriched.py:124-125,139-140`. -/
def evaluateL (I : Interp K P) : List Elem → Nat → P → Option (Dim × Nat) → M (List (Tab K))
  | [], _, _, _ => pure []
  | e :: es, order, ps, entity => do
    let t ← evaluate I e order ps entity
    let ts ← evaluateL I es order ps entity
    pure (t :: ts)
end

/-! ### Points of the factors -/

/-- Splitting a point expression, `finat/tensor_product.py:155-166`. -/
def factorPoint (cells : List Cell) (dims : List Dim) (point : Gem K) : M (List (Gem K)) := do
  assertM (decide (cells.length = dims.length))
  let pointDims := dims.map Dim.total
  assertM (decide (point.shape = [pointDims.sum]))
  (splitLens pointDims (List.range pointDims.sum)).mapM fun s => do
    let es ← s.mapM fun i => mkIndexed point [.fixed i]
    mkListTensor [s.length] es

end FInAT
