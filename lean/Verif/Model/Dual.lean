import Verif.Model.FiatTab

/-!
# Dual bases and dual evaluation
-/

namespace FInAT

/-- A FIAT functional: `pt_dict` maps points to lists of pairs of a weight and a component;
`hasDeriv` tells that `deriv_dict` is not empty.
External; used at `finat/fiat_elements.py` 187-223. -/
structure Node (K : Type) where
  ptDict : Dict (List K) (List (K × List Nat))
  hasDeriv : Bool

/-- What the dual bases of leaves get from FIAT: the functionals; the order used by `sorted` on point
tuples; `isOne w` is `np.isclose(w, 1)`.
External; used at `finat/fiat_elements.py` 187-198, 224. -/
structure FiatDual (K : Type) where
  nodes : Leaf → List (Node K)
  le : List K → List K → Bool
  isOne : K → Bool

variable {K : Type} [CommRing K] [DecidableEq K]

/-- The loop that collects the points, `finat/fiat_elements.py:188-204`: the state is the dictionary
`seen` (tuple of points to range of positions) and the list `allpts`. -/
def collectPoints (le : List K → List K → Bool) (nodes : List (Node K)) :
    Except Err (Dict (List (List K)) (Nat × Nat) × List (List K)) :=
  nodes.foldlM (fun st dual =>
    if dual.hasDeriv then .error .notImplemented
    else
      let pts := sortBy le dual.ptDict.keys
      if pts ∈ st.1.keys then .ok st
      else .ok (st.1.set pts (st.2.length, st.2.length + pts.length), st.2 ++ pts)) ([], [])

/-- The loop over `zip(pts, range(kstart, kend))`, `finat/fiat_elements.py:221-223`, for node `i`. -/
def addWeights (i : Nat) (ptDict : Dict (List K) (List (K × List Nat)))
    (Q : Dict (List Nat) K) (pk : List K × Nat) : Except Err (Dict (List Nat) K) := do
  let ws ← ptDict.get pk.1
  pure (ws.foldl (fun Q wc => Q.set (i :: pk.2 :: wc.2) wc.1) Q)

/-- The loop that builds the dictionary `Q`, `finat/fiat_elements.py:216-223`. -/
def buildQ (le : List K → List K → Bool) (nodes : List (Node K))
    (seen : Dict (List (List K)) (Nat × Nat)) : Except Err (Dict (List Nat) K) :=
  (enumFrom 0 nodes).foldlM (fun Q p => do
    let pts := sortBy le p.2.ptDict.keys
    let r ← seen.get pts
    (pts.zip (List.range' r.1 (r.2 - r.1))).foldlM (addWeights p.1 p.2.ptDict) Q) []

/-- `tuple(map(max, zip(*keys)))` (and, for at least two keys, `tuple(map(max, *keys))`): columnwise
maximum, as long as the shortest key.
Source: `finat/fiat_elements.py` 227, 238-241. -/
def colMax : List (List Nat) → List Nat
  | [] => []
  | [k] => k
  | k :: ks => List.zipWith max k (colMax ks)

/-- Is the dictionary an identity matrix? `finat/fiat_elements.py:224-225`. -/
def isIdentity (isOne : K → Bool) (Q : Dict (List Nat) K) : Bool :=
  Q.all fun p => match p.1 with
    | [a, b] => decide (a = b) && isOne p.2
    | _ => false

/-- The tensor of weights, `finat/fiat_elements.py:224-245`. (With one key, and with several, the shape
is the columnwise maximum plus one; `Qdense[idx] = value` raises `IndexError` when a key is longer than
the shape.) -/
def weightTensor (isOne : K → Bool) (Q : Dict (List Nat) K) : M (Gem K) :=
  if isIdentity isOne Q then do
    let js ← freshIndices ((colMax Q.keys).map (· + 1))
    match js with
    | [a, b] => mkComponentTensor (.delta a b) [a, b]
    | _ => liftE (.error .assertionError)
  else
    let shape := (colMax Q.keys).map (· + 1)
    if Q.keys.all fun k => decide (k.length = shape.length) then
      pure (.literal shape fun v => (Q.get? v).getD 0)
    else liftE (.error .indexError)

/-- `FiatElement._dual_basis` and `FiatElement.dual_basis`, `finat/fiat_elements.py:181-261`. (The
split into a cached numerical part and a part creating new indices is not modelled: the model
recomputes. `gem.indices` creates indices without extent, which get the extents of the axes.) -/
def leafDualBasis (D : FiatDual K) (l : Leaf) : M (Gem K × PSet K) := do
  let st ← liftE (collectPoints D.le (D.nodes l))
  let q ← liftE (buildQ D.le (D.nodes l) st.1)
  let Q ← weightTensor D.isOne q
  let x ← freshIndices [st.2.length]
  match Q.shape with
  | d :: k :: ds => do
    assertM (decide (k = st.2.length))
    let ij ← freshIndices (d :: ds)
    let e ← mkIndexed Q ((ij.take 1 ++ x ++ ij.drop 1).map .free)
    let r ← mkComponentTensor e ij
    pure (r, .points .plain st.2 x)
  | _ => liftE (.error .indexError)

/-- `QuadratureElement.dual_basis`, `finat/quadrature_element.py:130-139`. -/
def quadDualBasis (R : Rules K) (r : Nat) (extents : List Nat) : M (Gem K × PSet K) := do
  let multiindex ← freshIndices extents
  let product ← reduceProduct (((R.pointSet r).indices.zip multiindex).map fun p => .delta p.1 p.2)
  let t ← mkComponentTensor product multiindex
  pure (t, R.pointSet r)

/-- The tensor built by `TensorProductElement.dual_basis`, `finat/tensor_product.py:179-188`. -/
def productDual (idxShapes valShapes : List (List Nat)) (qs : List (Gem K)) : M (Gem K) := do
  let alphas ← idxShapes.mapM freshIndices
  let zetas ← valShapes.mapM freshIndices
  let qis ← (qs.zip (alphas.zip zetas)).mapM fun p => mkIndexed p.1 ((p.2.1 ++ p.2.2).map .free)
  let e ← reduceProduct qis
  mkComponentTensor e (alphas ++ zetas).flatten

/-- The tensor built by `TensorFiniteElement.dual_basis`, `finat/tensorfiniteelement.py:153-175`. -/
def tensorDual (baseIndexShape baseValueShape shape : List Nat) (transpose : Bool) (Q : Gem K) :
    M (Gem K) := do
  let scalarI ← freshIndices baseIndexShape
  let scalarVI ← freshIndices baseValueShape
  let tensorI ← freshIndices shape
  let tensorVI ← freshIndices shape
  let deltas ← reduceProduct ((tensorI.zip tensorVI).map fun p => .delta p.1 p.2)
  let ordering := if transpose then tensorI ++ scalarI ++ tensorVI ++ scalarVI
    else scalarI ++ tensorI ++ tensorVI ++ scalarVI
  let Qi ← mkIndexed Q ((scalarI ++ scalarVI).map .free)
  let y ← mkProduct Qi deltas
  mkComponentTensor y ordering

mutual
/-- The `dual_basis` property: `finat/fiat_elements.py:248-261`, `tensor_product.py:174-189`,
`cube.py:86-88`, `discontinuous.py:74-76`, `tensorfiniteelement.py:153-175`, `hdivcurl.py:81-92`,
`quadrature_element.py:130-139`; enriched and mixed elements inherit the default
(`finiteelementbase.py:178-236`), which raises `NotImplementedError`. `TensorPointSet` needs at least
one factor here: `zip(*())` cannot be unpacked. -/
def dualBasis (D : FiatDual K) (R : Rules K) : Elem → M (Gem K × PSet K)
  | .leaf l => leafDualBasis D l
  | .tensorProduct fs => do
    let qps ← dualBasisL D R fs
    if qps.isEmpty then liftE (.error .valueError)
    else do
      let vs ← liftE (Elem.valueShapeL fs)
      let Q ← productDual (Elem.indexShapeL fs) vs (qps.map Prod.fst)
      pure (Q, .tensor (qps.map Prod.snd))
  | .flattened p => dualBasis D R p
  | .enriched _ => liftE (.error .notImplemented)
  | .mixedSub _ _ _ => liftE (.error .notImplemented)
  | .discontinuous e => dualBasis D R e
  | .tensorFE e shape transpose => do
    let qp ← dualBasis D R e
    let vs ← liftE e.valueShape
    let Q ← tensorDual e.indexShape vs shape transpose qp.1
    pure (Q, qp.2)
  | .hdiv w => do
    let qp ← dualBasis D R w
    let comps ← liftE (selectHdiv w.factorsOf)
    let c ← liftE w.cell
    let beta ← freshIndices w.indexShape
    let zeta ← freshIndices [c.spatialDim]
    let Q ← promoteWrapped comps beta zeta qp.1
    pure (Q, qp.2)
  | .hcurl w => do
    let qp ← dualBasis D R w
    let comps ← liftE (selectHcurl w.factorsOf)
    let c ← liftE w.cell
    let beta ← freshIndices w.indexShape
    let zeta ← freshIndices [c.spatialDim]
    let Q ← promoteWrapped comps beta zeta qp.1
    pure (Q, qp.2)
  | .quadrature r _ ext => quadDualBasis R r ext
/-- `[factor.dual_basis for factor in self.factors]`.
Source: `finat/tensor_product.py` 177. -/
def dualBasisL (D : FiatDual K) (R : Rules K) : List Elem → M (List (Gem K × PSet K))
  | [] => pure []
  | e :: es => do
    let q ← dualBasis D R e
    let qs ← dualBasisL D R es
    pure (q :: qs)
end

/-! ### Dual evaluation -/

/-- `FiniteElementBase.dual_evaluation`, `finat/finiteelementbase.py:239-275`, and
`TensorFiniteElement.dual_evaluation`, `finat/tensorfiniteelement.py:177-205`: the expression and the
tuple of basis indices. The value-preserving rewritings `delta_elimination`, `sum_factorise` and
`contraction` are not modelled. Wrapping a tensor element in `FlattenedDimensions` or
`DiscontinuousElement` selects the base class method, as in Python. -/
def dualEvaluation (D : FiatDual K) (R : Rules K) (e : Elem) (fn : PSet K → M (Gem K)) :
    M (Gem K × List Index) :=
  match e with
  | .tensorFE b shape transpose => do
    let qp ← dualBasis D R e
    let expr ← fn qp.2
    let vs ← liftE e.valueShape
    assertM (decide (expr.shape = vs))
    let bvs ← liftE b.valueShape
    let scalarI ← freshIndices b.indexShape
    let scalarVI ← freshIndices bvs
    let tensorI ← freshIndices shape
    let tensorVI ← freshIndices shape
    let ordering := if transpose then tensorI ++ scalarI ++ tensorVI ++ scalarVI
      else scalarI ++ tensorI ++ tensorVI ++ scalarVI
    let tQi ← mkIndexed qp.1 (ordering.map .free)
    let expri ← mkIndexed expr ((tensorI ++ scalarVI).map .free)
    let prod ← mkProduct tQi expri
    let ev ← mkIndexSum prod (qp.2.indices ++ scalarVI ++ tensorI)
    pure (ev, scalarI ++ tensorVI)
  | e => do
    let qp ← dualBasis D R e
    let expr ← fn qp.2
    let k := qp.1.shape.length - expr.shape.length
    assertM (decide (expr.shape = qp.1.shape.drop k))
    let shapeIx ← freshIndices expr.shape
    let basisIx ← freshIndices (qp.1.shape.take k)
    let Qi ← mkIndexed qp.1 ((basisIx ++ shapeIx).map .free)
    let expri ← mkIndexed expr (shapeIx.map .free)
    let prod ← mkProduct Qi expri
    let ev ← mkIndexSum prod (qp.2.indices ++ shapeIx)
    pure (ev, basisIx)

end FInAT
