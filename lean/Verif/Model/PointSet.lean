import Verif.Model.Gem
import Verif.Model.Cell

/-!
# Point sets
-/

namespace FInAT

/-- Class of an unstructured point set: `PointSet`, `GaussLegendrePointSet`,
`GaussLobattoLegendrePointSet` (`finat/point_set.py:123-172`). -/
inductive PSClass where
  | plain
  | gaussLegendre
  | gaussLobattoLegendre
deriving DecidableEq, Repr

/-- Point sets, `finat/point_set.py:41-203`. `points` carries its points as a list (one row each) and
its point indices: one index whose extent is the number of points (lines 140-142), or the indices of
the set it was split from (`finat/tensor_product.py:334`). `unknown` (`UnknownPointSet`) carries the
run-time values of its points. -/
inductive PSet (K : Type) where
  | singleton (point : List K)
  | points (cls : PSClass) (pts : List (List K)) (idx : List Index)
  | unknown (pts : List (List K)) (dim : Nat) (idx : Index)
  | tensor (factors : List (PSet K))

namespace PSet

variable {K : Type}

mutual
/-- `ps.indices`: `point_set.py:62,114-116,140-142,186-188`. -/
def indices : PSet K → List Index
  | .singleton _ => []
  | .points _ _ idx => idx
  | .unknown _ _ idx => [idx]
  | .tensor fs => indicesL fs
/-- Indices of the factors, concatenated.
Source: `finat/point_set.py` 188. -/
def indicesL : List (PSet K) → List Index
  | [] => []
  | p :: ps => p.indices ++ indicesL ps
end

mutual
/-- `ps.points`: `point_set.py:56-60,132-138,180-184`. For the unknown set these are the run-time
values. -/
def pts : PSet K → List (List K)
  | .singleton p => [p]
  | .points _ pts _ => pts
  | .unknown pts _ _ => pts
  | .tensor fs => (product (ptsL fs)).map List.flatten
/-- `[ps.points for ps in self.factors]`.
Source: `finat/point_set.py` 183-184. -/
def ptsL : List (PSet K) → List (List (List K))
  | [] => []
  | p :: ps => p.pts :: ptsL ps
end

mutual
/-- The point selected by an assignment of the point indices: the meaning of `ps.expression`
(`point_set.py:64-66,118-120,144-146,190-196`). -/
def pointAt (ρ : Nat → Nat) : PSet K → List K
  | .singleton p => p
  | .points _ pts idx => (pts[ravel (idx.map Index.extent) (idx.map fun i => ρ i.id)]?).getD []
  | .unknown pts _ idx => (pts[ρ idx.id]?).getD []
  | .tensor fs => pointAtL ρ fs
/-- Concatenation of the selected factor points.
Source: `finat/point_set.py` 182, 191-196. -/
def pointAtL (ρ : Nat → Nat) : List (PSet K) → List K
  | [] => []
  | p :: ps => p.pointAt ρ ++ pointAtL ρ ps
end

/-- `ps.dimension`: the number of columns of `ps.points` (`point_set.py:24-28`): `points.shape[1]`.
An array without rows has no determined width in this model (numpy would keep it); the model returns
`ValueError`, as numpy does when unpacking the shape `(0,)` of an empty list. -/
def dimension : PSet K → Except Err Nat
  | .unknown _ d _ => .ok d
  | ps => match ps.pts with
    | [] => .error .valueError
    | p :: _ => .ok p.length

end PSet

/-- Consecutive pieces of the given lengths: what slicing with FIAT's
`TensorProductCell._split_slices(lengths)` selects.
External; used at `finat/tensor_product.py` 108-109, 160. -/
def splitLens {α : Type} : List Nat → List α → List (List α)
  | [], _ => []
  | n :: ns, l => l.take n :: splitLens ns (l.drop n)

/-- `factor_point_set(product_cell, product_dim, point_set)`, `finat/tensor_product.py:303-338`.
`cell.construct_subelement(dim).get_spatial_dimension()` is the total of the dimension. -/
def factorPointSet {K : Type} (cells : List Cell) (dims : List Dim) (ps : PSet K) :
    Except Err (List (PSet K)) := do
  if cells.length ≠ dims.length then .error .assertionError
  else
    let pointDims := dims.map Dim.total
    let split : Except Err (List (PSet K)) := do
      let d ← ps.dimension
      if d ≠ pointDims.sum then .error .assertionError
      else match ps with
        | .singleton p => .ok ((splitLens pointDims p).map .singleton)
        | .unknown _ _ _ => .error .notImplemented
        | ps => .ok ((splitLens pointDims (List.range d)).map fun cols =>
            .points .plain (ps.pts.map fun pt => cols.filterMap fun c => pt[c]?) ps.indices)
    match ps with
    | .tensor fs =>
      if cells.length = fs.length then do
        let ds ← fs.mapM PSet.dimension
        if ds = pointDims then .ok fs else .error .assertionError
      else split
    | _ => split

end FInAT
