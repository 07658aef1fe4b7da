import Verif.Model.PointSet

/-!
# Quadrature rules
-/

namespace FInAT

/-- The `degree` argument of `make_quadrature`: an integer or a tuple of degrees.
Source: `finat/quadrature.py` 29-34. -/
inductive Degree where
  | int (d : Int)
  | tup (ds : List Degree)
deriving Repr

/-- `try: degree = tuple(degree) except TypeError: degree = (degree,) * len(ref_el.cells)`,
`finat/quadrature.py:29-32`. -/
def Degree.expand (n : Nat) : Degree → List Degree
  | .int d => List.replicate n (.int d)
  | .tup ds => ds

/-- What the rules of simple cells get from FIAT (not part of the repository): which cells are macro
cells; points and weights of `GaussLegendreQuadratureLineRule(interval, n)` and of
`create_quadrature(cell, degree, scheme)`.
External; used at `finat/quadrature.py` 50-56. -/
structure FiatQuad (K : Type) where
  isMacro : Cell → Bool
  gauss : Nat → List (List K) × List K
  scheme : Cell → Nat → String → Except Err (List (List K) × List K)

/-- `QuadratureRule` and `TensorProductQuadratureRule`, `finat/quadrature.py:101-140`. The reference
element and the orientation permutations stored with a rule are not modelled. -/
inductive QRule (K : Type) where
  | rule (ps : PSet K) (weights : List K)
  | tensor (factors : List (QRule K))

variable {K : Type} [Zero K]

namespace QRule

mutual
/-- `rule.point_set`, `finat/quadrature.py:113-115,134-136`. -/
def pointSet : QRule K → PSet K
  | .rule ps _ => ps
  | .tensor fs => .tensor (pointSetL fs)
/-- `q.point_set for q in self.factors`.
Source: `finat/quadrature.py` 136. -/
def pointSetL : List (QRule K) → List (PSet K)
  | [] => []
  | q :: qs => q.pointSet :: pointSetL qs
end

mutual
/-- `rule.weight_expression`, `finat/quadrature.py:117-119,138-140`. -/
def weightExpr : QRule K → M (Gem K)
  | .rule ps w => mkIndexed (.literal [w.length] fun v => (w[v.headD 0]?).getD 0) (ps.indices.map .free)
  | .tensor fs => do
    let es ← weightExprL fs
    reduceProduct es
/-- `q.weight_expression for q in self.factors`.
Source: `finat/quadrature.py` 140. -/
def weightExprL : List (QRule K) → M (List (Gem K))
  | [] => pure []
  | q :: qs => do
    let e ← weightExpr q
    let es ← weightExprL qs
    pure (e :: es)
end

end QRule

/-- `QuadratureRule(point_set, weights)` for a new point set with the given points,
`finat/quadrature.py:104-111`: `assert len(point_set.points) == len(weights)`. (The point index is
created lazily and cached in Python; the model creates it with the rule.) -/
def mkRule (cls : PSClass) (pw : List (List K) × List K) : M (QRule K) := do
  assertM (decide (pw.1.length = pw.2.length))
  let x ← freshIndices [pw.1.length]
  pure (.rule (.points cls pw.1 x) pw.2)

/-- `make_quadrature` for a cell that is neither a product nor a quadrilateral,
`finat/quadrature.py:42-56`. A tuple cannot be compared with an integer (`TypeError`). -/
def makeSimple (F : FiatQuad K) (scheme : String) (c : Cell) : Degree → M (QRule K)
  | .tup _ => liftE (.error .typeError)
  | .int d =>
    if d < 0 then liftE (.error .valueError)
    else if c = .simplex 1 ∧ F.isMacro c = false then
      mkRule .gaussLegendre (F.gauss ((d.toNat + 1 + 1) / 2))
    else do
      let pw ← liftE (F.scheme c d.toNat scheme)
      mkRule .plain pw

mutual
/-- `make_quadrature(ref_el, degree, scheme)`, `finat/quadrature.py:14-56`. For a quadrilateral the
recursive call on its product (the product of two intervals) is written out. -/
def makeQuadrature (F : FiatQuad K) (scheme : String) : Cell → Degree → M (QRule K)
  | .prod cs, deg => do
    assertM (decide (cs.length = (deg.expand cs.length).length))
    let rs ← makeQuadratureL F scheme cs (deg.expand cs.length)
    pure (.tensor rs)
  | .quad, deg => do
    assertM (decide (2 = (deg.expand 2).length))
    let rs ← ((deg.expand 2).take 2).mapM (makeSimple F scheme (.simplex 1))
    pure (.tensor rs)
  | c, deg => makeSimple F scheme c deg
/-- `[make_quadrature(c, d, scheme) for c, d in zip(ref_el.cells, degree)]`.
Source: `finat/quadrature.py` 35-36. -/
def makeQuadratureL (F : FiatQuad K) (scheme : String) : List Cell → List Degree → M (List (QRule K))
  | c :: cs, d :: ds => do
    let r ← makeQuadrature F scheme c d
    let rs ← makeQuadratureL F scheme cs ds
    pure (r :: rs)
  | _, _ => pure []
end

end FInAT
