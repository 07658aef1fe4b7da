import Verif.Model.Tabulate

/-!
# Tabulation of leaves: FIAT elements, spectral, physically mapped and quadrature elements
-/

namespace FInAT

/-- A physically mapped element's `basis_transformation(coordinate_mapping)` for a fixed geometry: a
matrix with one row per FInAT basis function and one column per FIAT basis function.
Source: `finat/physically_mapped.py` 260-265. -/
structure Mapped (K : Type) where
  cols : Nat
  entry : Nat → Nat → K

/-- What the leaves get from FIAT (which is not part of the repository) and from the geometry:
`fn l α ent x i z` is component `z` of the derivative `α` of the FIAT basis function `i` at the point
`x` of entity `ent`; `isMacro` is `is_macrocell()`; `small x` is `numpy.allclose(x, 0.0)`; `spectral`
tells the point set class whose points are the nodes (for `GaussLobattoLegendre`, `GaussLegendre`);
`mapped` is present for physically mapped elements.
External; used at `finat/fiat_elements.py` 101-103. -/
structure Fiat (K : Type) where
  fn : Leaf → List Nat → Dim × Nat → List K → Nat → List Nat → K
  isMacro : Leaf → Bool
  small : K → Bool
  spectral : Leaf → Option PSClass
  mapped : Leaf → Option (Mapped K)

variable {K : Type} [CommRing K]

/-- `self._element.space_dimension()`: the number of FIAT basis functions (equal to the number of
FInAT basis functions except for reduced physically mapped elements).
External; used at `finat/fiat_elements.py` 101, 112. -/
def Fiat.dim (F : Fiat K) (l : Leaf) : Nat := match F.mapped l with
  | none => l.fns.length
  | some m => m.cols

/-- FIAT's `tabulate(order, points, entity)`: for every derivative up to the order an array of shape
`(space_dimension,) + value_shape + (len(points),)`, here as a function of the flat (row-major)
position. FIAT replaces a missing entity by the cell.
External; used at `finat/fiat_elements.py` 103. -/
def fiatTabulate (F : Fiat K) (l : Leaf) (order : Nat) (pts : List (List K))
    (entity : Option (Dim × Nat)) : Dict (List Nat) (Nat → K) :=
  ((List.range (order + 1)).flatMap (mis l.cell.spatialDim)).map fun α =>
    (α, fun k =>
      let v := unravel (F.dim l :: (l.valueShape ++ [pts.length])) k
      F.fn l α (entity.getD (l.cell.dimension, 0)) ((pts[v.getLastD 0]?).getD []) (v.headD 0)
        (v.drop 1).dropLast)

/-- `table_roll[c][q][i]` with `table_roll = fiat_table.reshape(space_dimension, value_size,
len(ps.points)).transpose(1, 2, 0)`, `finat/fiat_elements.py:118-120`. -/
def tableRoll (nf vsize npts : Nat) (flat : Nat → K) (c q i : Nat) : K :=
  flat (ravel [nf, vsize, npts] [i, c, q])

/-- The expression of one value component, `finat/fiat_elements.py:122-138`. `numpy` raises `IndexError`
for `table[0]` when there are no points and `ValueError` when a reshape changes the size. -/
def fiatExpr (F : Fiat K) (l : Leaf) (α : List Nat) (flat : Nat → K) (ps : PSet K) (c : Nat) :
    M (Gem K) :=
  let nf := F.dim l
  let table := tableRoll nf l.valueShape.prod ps.pts.length flat c
  if α.sum = l.degree ∧ F.isMacro l = false then
    if ps.pts.length = 0 then liftE (.error .indexError)
    else pure (.literal [nf] fun v => table 0 (v.headD 0))
  else if l.degree < α.sum then do
    assertM ((List.range ps.pts.length).all fun q => (List.range nf).all fun i => F.small (table q i))
    pure (.literal [l.fns.length] fun _ => 0)
  else
    let ext := ps.indices.map Index.extent
    if ext.prod * nf ≠ ps.pts.length * nf then liftE (.error .valueError)
    else
      partialIndexed
        (.literal (ext ++ [nf]) fun v =>
          let k := ravel (ext ++ [nf]) v
          table (k / nf) (k % nf))
        (ps.indices.map .free)

/-- The table for one derivative, `finat/fiat_elements.py:122-156`. (`gem.Failure`, for tables that
FIAT cannot compute, is not modelled.) -/
def fiatTable (F : Fiat K) (l : Leaf) (ps : PSet K) (α : List Nat) (flat : Nat → K) : M (Gem K) := do
  let exprs ← (List.range l.valueShape.prod).mapM (fiatExpr F l α flat ps)
  if l.valueShape = [] then
    match exprs with
    | [e] => pure e
    | _ => liftE (.error .valueError)
  else do
    let beta ← freshIndices [F.dim l]
    let zeta ← freshIndices l.valueShape
    let es ← exprs.mapM fun e => mkIndexed e (beta.map .free)
    let u ← mkListTensor l.valueShape es
    let x ← mkIndexed u (zeta.map .free)
    mkComponentTensor x (beta ++ zeta)

/-- `FiatElement.basis_evaluation`, `finat/fiat_elements.py:93-158`. For run-time points
(`UnknownPointSet`) FIAT raises, there are no numbers to tabulate at. -/
def fiatBasisEvaluation (F : Fiat K) (l : Leaf) (order : Nat) (ps : PSet K)
    (entity : Option (Dim × Nat)) : M (Tab K) :=
  match ps with
  | .unknown _ _ _ => liftE (.error .typeError)
  | ps => (fiatTabulate F l order ps.pts entity).mapM fun p => do
    let t ← fiatTable F l ps p.1 p.2
    pure (p.1, t)

/-- The class of a point set (`isinstance(ps, ...)`).
Source: `finat/point_set.py` 150, 200. -/
def PSet.cls? : PSet K → Option PSClass
  | .points c _ _ => some c
  | _ => none

/-- `GaussLobattoLegendre.basis_evaluation` and `GaussLegendre.basis_evaluation`,
`finat/spectral.py:16-35,45-64`: the table of values is replaced by an identity when the points are the
nodes. `q, = ps.indices` raises `ValueError` unless there is one point index. -/
def spectralBasisEvaluation (F : Fiat K) (cls : PSClass) (l : Leaf) (order : Nat) (ps : PSet K)
    (entity : Option (Dim × Nat)) : M (Tab K) := do
  let result ← fiatBasisEvaluation F l order ps entity
  if (entity = none ∨ entity = some (l.cell.dimension, 0)) ∧ ps.cls? = some cls ∧
      ps.pts.length = l.fns.length then
    match ps.indices with
    | [q] => do
      let r ← freshIndices [l.fns.length]
      match r with
      | [r] => do
        let t ← mkComponentTensor (.delta q r) [r]
        pure (Dict.set result (List.replicate l.cell.spatialDim 0) t)
      | _ => liftE (.error .valueError)
    | _ => liftE (.error .valueError)
  else pure result

/-- The closure `matvec` of `PhysicallyMappedElement.basis_evaluation`,
`finat/physically_mapped.py:273-280`. `constant_fold_zero` and `aggressive_unroll` rewrite expressions
without changing values and are not modelled; `gem.indices` creates indices without extents, which
are set by the first use: here the extents of the rows and columns of `M`. -/
def matvec (l : Leaf) (m : Mapped K) (table : Gem K) : M (Gem K) := do
  let ij ← freshIndices [l.fns.length, m.cols]
  let zeta ← freshIndices l.valueShape
  let t ← mkIndexed table ((ij.drop 1 ++ zeta).map .free)
  let e ← mkIndexed (.literal [l.fns.length, m.cols] fun v => m.entry (v.headD 0) (v.getLastD 0))
    (ij.map .free)
  let p ← mkProduct e t
  let s ← mkIndexSum p (ij.drop 1)
  mkComponentTensor s (ij.take 1 ++ zeta)

/-- `basis_evaluation` of the leaves: `PhysicallyMappedElement.basis_evaluation`
(`finat/physically_mapped.py:267-285`), the spectral elements, `FiatElement.basis_evaluation`. -/
def leafBasisEvaluation (F : Fiat K) (l : Leaf) (order : Nat) (ps : PSet K)
    (entity : Option (Dim × Nat)) : M (Tab K) :=
  match F.mapped l with
  | some m => do
    let result ← fiatBasisEvaluation F l order ps entity
    mapTab (matvec l m) result
  | none =>
    match F.spectral l with
    | some cls => spectralBasisEvaluation F cls l order ps entity
    | none => fiatBasisEvaluation F l order ps entity

/-! ### Quadrature elements -/

/-- Rules known by number: the point set of a rule, and `numpy.allclose` on points
(`rtol=0, atol=1e-12`).
Source: `finat/quadrature_element.py` 81, 116; `finat/point_set.py` 152. -/
structure Rules (K : Type) where
  pointSet : Nat → PSet K
  close : List K → List K → Bool

mutual
/-- `point_set.almost_equal(other)`, `finat/point_set.py:148-152,198-203`. `PointSingleton` and
`UnknownPointSet` have no such method (`AttributeError`). -/
def PSet.almostEqual (close : List K → List K → Bool) : PSet K → PSet K → Except Err Bool
  | .points c pts _, .points c' pts' _ =>
    .ok (decide (c = c') && decide (pts.length = pts'.length) &&
      (pts.zip pts').all fun p => decide (p.1.length = p.2.length) && close p.1 p.2)
  | .tensor fs, .tensor gs =>
    if fs.length = gs.length then almostEqualL close fs gs else .ok false
  | .points _ _ _, _ => .ok false
  | .tensor _, _ => .ok false
  | .singleton _, _ => .error .attributeError
  | .unknown _ _ _, _ => .error .attributeError
/-- `all(s.almost_equal(o) for s, o in zip(self.factors, other.factors))`.
Source: `finat/point_set.py` 202-203. -/
def PSet.almostEqualL (close : List K → List K → Bool) : List (PSet K) → List (PSet K) → Except Err Bool
  | f :: fs, g :: gs => do
    let b ← PSet.almostEqual close f g
    if b then almostEqualL close fs gs else pure false
  | _, _ => .ok true
end

/-- `QuadratureElement.basis_evaluation`, `finat/quadrature_element.py:102-125`. `index_shape` are the
extents of the point indices of the rule. -/
def quadBasisEvaluation (R : Rules K) (r : Nat) (cell : Cell) (extents : List Nat) (order : Nat)
    (ps : PSet K) (entity : Option (Dim × Nat)) : M (Tab K) := do
  if entity ≠ none ∧ entity ≠ some (cell.dimension, 0) then liftE (.error .valueError)
  else if order ≠ 0 then liftE (.error .valueError)
  else do
    let b ← liftE ((R.pointSet r).almostEqual R.close ps)
    if b = false then liftE (.error .valueError)
    else do
      let multiindex ← freshIndices extents
      let product ← reduceProduct ((ps.indices.zip multiindex).map fun p => .delta p.1 p.2)
      let t ← mkComponentTensor product multiindex
      pure [(List.replicate cell.spatialDim 0, t)]

/-! ### Point evaluation of FIAT elements -/

/-- FIAT's tabulation at a symbolic point, converted to GEM (`finat/fiat_elements.py:279-293`): the
expression of component `z` of the derivative `α` of basis function `i`; see
`Verif/Model/Sympy2gem.lean` for the conversion. -/
abbrev SymTab (K : Type) := Leaf → List Nat → Dim × Nat → Gem K → Nat → List Nat → Gem K

/-- The table for one derivative, `finat/fiat_elements.py:295-312`. -/
def fiatPointTable (S : SymTab K) (l : Leaf) (α : List Nat) (ent : Dim × Nat) (point : Gem K) :
    M (Gem K) := do
  let nf := l.fns.length
  let exprs ← (List.range l.valueShape.prod).mapM fun c =>
    mkListTensor [nf] ((List.range nf).map fun i => S l α ent point i (unravel l.valueShape c))
  if l.valueShape = [] then
    match exprs with
    | [e] => pure e
    | _ => liftE (.error .valueError)
  else do
    let beta ← freshIndices [nf]
    let zeta ← freshIndices l.valueShape
    let es ← exprs.mapM fun e => mkIndexed e (beta.map .free)
    let u ← mkListTensor l.valueShape es
    let x ← mkIndexed u (zeta.map .free)
    mkComponentTensor x (beta ++ zeta)

/-- `FiatElement.point_evaluation`, `finat/fiat_elements.py:160-179,273-313`. Physically mapped
elements raise `NotImplementedError` (`physically_mapped.py:287-288`). -/
def fiatPointEvaluation (F : Fiat K) (S : SymTab K) (l : Leaf) (order : Nat) (point : Gem K)
    (entity : Option (Dim × Nat)) : M (Tab K) := do
  let ent := entity.getD (l.cell.dimension, 0)
  if (F.mapped l).isSome then liftE (.error .notImplemented)
  else do
    assertM (decide (point.shape = [ent.1.total]))
    ((List.range (order + 1)).flatMap (mis l.cell.spatialDim)).mapM fun α => do
      let t ← fiatPointTable S l α ent point
      pure (α, t)

/-! ### The tabulation methods -/

/-- `basis_evaluation` of a leaf in a call with (`mapping = true`) or without (`mapping = false`) a coordinate
mapping: `assert coordinate_mapping is not None`, `finat/physically_mapped.py:268`. The geometry behind
the mapping is part of `F.mapped`. -/
def leafBasisWith (F : Fiat K) (mapping : Bool) (l : Leaf) (order : Nat) (ps : PSet K)
    (entity : Option (Dim × Nat)) : M (Tab K) :=
  if (F.mapped l).isSome && !mapping then liftE (.error .assertionError)
  else leafBasisEvaluation F l order ps entity

/-- `fe.basis_evaluation(order, ps, entity)`, without a coordinate mapping.
Source: `finat/tensor_product.py` 140-149; `finat/enriched.py` 116-126; `finat/mixed.py` 90-92;
`finat/cube.py` 67-78; `finat/hdivcurl.py` 73-75; `finat/tensorfiniteelement.py` 112-151. -/
def basisInterp (F : Fiat K) (R : Rules K) : Interp K (PSet K) where
  factor cs ds ps := liftE (factorPointSet cs ds ps)
  forget := id
  leafTab := leafBasisWith F false
  quadTab := quadBasisEvaluation R

/-- `fe.basis_evaluation(order, ps, entity, coordinate_mapping=...)`: the points come with a flag that says
whether the coordinate mapping has been passed on. Products call their factors without it
(`tensor_product.py:146-147`), flattened products (`cube.py:78`) and the H(div)/H(curl) wrappers
(`hdivcurl.py:74`) the wrapped element.
Source: `finat/tensor_product.py` 140-149; `finat/enriched.py` 116-126; `finat/mixed.py` 90-92;
`finat/cube.py` 67-78; `finat/hdivcurl.py` 73-75; `finat/discontinuous.py` 68-69;
`finat/tensorfiniteelement.py` 112-151. -/
def mappedInterp (F : Fiat K) (R : Rules K) : Interp K (PSet K × Bool) where
  factor cs ds p := do
    let ps ← liftE (factorPointSet cs ds p.1)
    pure (ps.map fun q => (q, false))
  forget p := (p.1, false)
  leafTab l order p := leafBasisWith F p.2 l order p.1
  quadTab r c ext order p := quadBasisEvaluation R r c ext order p.1

/-- `fe.point_evaluation(order, point, entity)`; there is no coordinate mapping. Quadrature elements raise
`NotImplementedError` (`finat/quadrature_element.py:127-128`). -/
def pointInterp (F : Fiat K) (S : SymTab K) : Interp K (Gem K) where
  factor := factorPoint
  forget := id
  leafTab := fiatPointEvaluation F S
  quadTab := fun _ _ _ _ _ _ => liftE (.error .notImplemented)

end FInAT
