import Verif.Model.Quadrature

/-!
# Orientation maps of quadrature rules
-/

namespace FInAT

/-- A map from the orientations of one axis to permutations of the points of this axis.
Source: `finat/quadrature.py` 86-98. -/
abbrev OMap := Dict Nat (List Nat)

/-- FIAT's rules with the maps `_intrinsic_orientation_permutation_map_tuple` they carry (`none` for Python's
`None`) and the attribute `extrinsic_orientation_permutation_map` of a cell (permutation matrices of its axes).
External; used at `finat/quadrature.py` 53, 56, 84. -/
structure FiatOrient (K : Type) extends FiatQuad K where
  gaussMaps : Nat → List (Option OMap)
  schemeMaps : Cell → Nat → String → List (Option OMap)
  extrinsic : Cell → Except Err (Dict Nat (List (List Nat)))

/-- `QuadratureRule` and `TensorProductQuadratureRule` with all their attributes: `ref_el`, the points and weights or
the factors, `_intrinsic_orientation_permutation_map_tuple`. Source: `finat/quadrature.py` 101-132. -/
inductive ORule (K : Type) where
  | rule (ref : Option Cell) (ps : PSet K) (weights : List K) (maps : List (Option OMap))
  | tensor (ref : Option Cell) (factors : List (ORule K)) (maps : List (Option OMap))

/-- What a Python call can receive as `factors`: a sequence that can be read again and again, or an iterator that is
exhausted once it has been read. Source: `finat/quadrature.py` 125-132. -/
inductive Iterable (α : Type) where
  | sequence (l : List α)
  | iterator (l : List α)

/-- Reading an iterable to its end: the items, and what is left of it.
Source: `finat/quadrature.py` 127, 130. -/
def Iterable.read {α : Type} : Iterable α → List α × Iterable α
  | .sequence l => (l, .sequence l)
  | .iterator l => (l, .iterator [])

variable {K : Type}

namespace ORule

/-- `rule.ref_el`, `finat/quadrature.py:108,126`. -/
def ref : ORule K → Option Cell
  | .rule r _ _ _ => r
  | .tensor r _ _ => r

/-- `rule._intrinsic_orientation_permutation_map_tuple`, `finat/quadrature.py:111,128-132`. -/
def maps : ORule K → List (Option OMap)
  | .rule _ _ _ m => m
  | .tensor _ _ m => m

mutual
/-- The rule without its orientation data.
Source: `finat/quadrature.py` 101-140. -/
def forget : ORule K → QRule K
  | .rule _ ps w _ => .rule ps w
  | .tensor _ fs _ => .tensor (forgetL fs)
/-- ... for lists. Source: `finat/quadrature.py` 127. -/
def forgetL : List (ORule K) → List (QRule K)
  | [] => []
  | q :: qs => q.forget :: forgetL qs
end

/-- `TensorProductQuadratureRule(factors, ref_el)`, `finat/quadrature.py:125-132`:
```
self.factors = tuple(factors)
self._intrinsic_orientation_permutation_map_tuple = tuple(
    m for factor in factors for m in factor._intrinsic_orientation_permutation_map_tuple)
```
The argument is read twice. -/
def newTensor (factors : Iterable (ORule K)) (ref : Option Cell) : ORule K :=
  let first := factors.read
  let second := first.2.read
  .tensor ref first.1 (second.1.flatMap maps)

/-- `rule.extrinsic_orientation_permutation_map`, `finat/quadrature.py:72-84`. -/
def extrinsicMap (F : FiatOrient K) (q : ORule K) : Except Err (Dict Nat (List (List Nat))) :=
  match q.ref with
  | none => .error .valueError
  | some c => F.extrinsic c

/-- `rule.intrinsic_orientation_permutation_map_tuple`, `finat/quadrature.py:86-98`:
`if any(m is None for m in ...): raise ValueError`. -/
def intrinsicMaps (q : ORule K) : Except Err (List OMap) :=
  if q.maps.any Option.isNone then .error .valueError else .ok (q.maps.filterMap id)

end ORule

/-- `QuadratureRule(point_set, weights, ref_el, io_ornt_map_tuple)`, `finat/quadrature.py:104-111`. -/
def mkORule (cls : PSClass) (c : Cell) (pw : List (List K) × List K) (maps : List (Option OMap)) : M (ORule K) := do
  assertM (decide (pw.1.length = pw.2.length))
  let x ← freshIndices [pw.1.length]
  pure (.rule (some c) (.points cls pw.1 x) pw.2 maps)

/-- `make_quadrature` for a cell that is neither a product nor a quadrilateral,
`finat/quadrature.py:42-56`, with the orientation data. -/
def makeSimpleO (F : FiatOrient K) (scheme : String) (c : Cell) : Degree → M (ORule K)
  | .tup _ => liftE (.error .typeError)
  | .int d =>
    if d < 0 then liftE (.error .valueError)
    else if c = .simplex 1 ∧ F.isMacro c = false then
      mkORule .gaussLegendre c (F.gauss ((d.toNat + 1 + 1) / 2)) (F.gaussMaps ((d.toNat + 1 + 1) / 2))
    else do
      let pw ← liftE (F.scheme c d.toNat scheme)
      mkORule .plain c pw (F.schemeMaps c d.toNat scheme)

mutual
/-- `make_quadrature(ref_el, degree, scheme)`, `finat/quadrature.py:14-56`, with the orientation data; the
factors of a product are passed as a list (line 37). For a quadrilateral the recursive call on its product (the product of
two intervals) is written out. -/
def makeOriented (F : FiatOrient K) (scheme : String) : Cell → Degree → M (ORule K)
  | .prod cs, deg => do
    assertM (decide (cs.length = (deg.expand cs.length).length))
    let rs ← makeOrientedL F scheme cs (deg.expand cs.length)
    pure (.newTensor (.sequence rs) (some (.prod cs)))
  | .quad, deg => do
    assertM (decide (2 = (deg.expand 2).length))
    let rs ← ((deg.expand 2).take 2).mapM (makeSimpleO F scheme (.simplex 1))
    pure (.newTensor (.sequence rs) (some (.prod [.simplex 1, .simplex 1])))
  | c, deg => makeSimpleO F scheme c deg
/-- `[make_quadrature(c, d, scheme) for c, d in zip(ref_el.cells, degree)]`.
Source: `finat/quadrature.py` 35-36. -/
def makeOrientedL (F : FiatOrient K) (scheme : String) : List Cell → List Degree → M (List (ORule K))
  | c :: cs, d :: ds => do
    let r ← makeOriented F scheme c d
    let rs ← makeOrientedL F scheme cs ds
    pure (r :: rs)
  | _, _ => pure []
end

end FInAT
