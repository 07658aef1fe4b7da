import Verif.Spec.Elem
import Verif.Model.Tabulate

/-!
# Elements as spaces of differential forms
-/

namespace FInAT.Spec

open FInAT

/-- No entity of dimension less than `k` carries degrees of freedom. -/
def NoneBelow (d : EntityDofs) (c : Cell) (k : Nat) : Prop :=
  ∀ dim n, (dim, n) ∈ c.topology → ∀ i < n, dim.total < k → dofsOn d dim i = []

/-- A leaf of form degree `k` has no degrees of freedom on entities of dimension less than `k`, and `k` is at most the
dimension of its cell. -/
def LeafForm (l : Leaf) : Prop := ∀ k, l.formdegree = some k → k ≤ l.cell.spatialDim ∧ NoneBelow l.dofs l.cell k

mutual
/-- All leaves are spaces of forms, all parts of a sum have the same form degree, and wrapped elements were accepted by
the constructor of the wrapper. -/
def Forms : Elem → Prop
  | .leaf l => LeafForm l
  | .tensorProduct fs => FormsL fs
  | .flattened p => Forms p
  | .enriched es => FormsL es ∧ ∃ k, ∀ e ∈ es, e.formdegree = .ok k
  | .mixedSub e _ _ => Forms e
  | .discontinuous e => Forms e
  | .tensorFE e _ _ => Forms e
  | .hdiv w => Forms w ∧ mkHDiv w = .ok (.hdiv w)
  | .hcurl w => Forms w ∧ mkHCurl w = .ok (.hcurl w)
  | .quadrature _ _ _ => True
/-- ... for all elements of a list. -/
def FormsL : List Elem → Prop
  | [] => True
  | e :: es => Forms e ∧ FormsL es
end

end FInAT.Spec
