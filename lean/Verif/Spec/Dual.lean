import Verif.Spec.Basis
import Verif.Model.Dual
import Verif.Lemmas.Points

/-!
# What the degrees of freedom of composite elements are

`dualValue ψ e i f`: the degree of freedom `i` of the element `e`, applied to the function `f` (of a
point and a component), given the degrees of freedom `ψ` of the leaves. Degrees of freedom of products
apply the functional of each factor to the corresponding variables; those of vector-valued elements
look at one component; those of H(div)/H(curl) wrappers look at the components to which the wrapped
components were moved; those of quadrature elements evaluate at a point.
-/

namespace FInAT.Spec

open FInAT

variable {K : Type} [CommRing K]

/-- A FIAT functional applied to a function: the weighted sum over its points and components. -/
def nodeValue (nd : Node K) (f : List K → List Nat → K) : K :=
  (nd.ptDict.map fun p => (p.2.map fun wc => wc.1 * f p.1 wc.2).sum).sum

/-- FIAT functionals for which the dual basis tensor is defined: no derivative evaluations; every
functional has points, every point has weights, at most one weight per component, and the components
are indices into the value shape `vs`. The last index of every axis of the value shape carries a weight
in some functional (the shape of the tensor is read off the weights). -/
structure NodesOK (vs : List Nat) (nodes : List (Node K)) : Prop where
  noDeriv : ∀ nd ∈ nodes, nd.hasDeriv = false
  nonempty : nodes ≠ []
  points : ∀ nd ∈ nodes, nd.ptDict ≠ [] ∧ nd.ptDict.keys.Nodup
  weights : ∀ nd ∈ nodes, ∀ p ∈ nd.ptDict, p.2 ≠ [] ∧ (p.2.map Prod.snd).Nodup ∧
    ∀ wc ∈ p.2, List.Forall₂ (· < ·) wc.2 vs
  attained : ∀ a < vs.length, ∃ nd ∈ nodes, ∃ p ∈ nd.ptDict, ∃ wc ∈ p.2, wc.2[a]? = some (vs[a]?.getD 0 - 1)

/-- Functionals of the leaves. -/
structure LeafDuals (K : Type) where
  leaf : Leaf → Nat → (List K → List Nat → K) → K
  quad : Nat → List Nat → List Nat → (List K → List Nat → K) → K

/-- The functionals of FIAT elements are FIAT's nodes, those of quadrature elements are the evaluations
at the points of the rule, numbered in row-major order of the multi-index. -/
def fiatDuals (D : FiatDual K) (R : Rules K) : LeafDuals K where
  leaf l i f := match (D.nodes l)[i]? with
    | some nd => nodeValue nd f
    | none => 0
  quad r ext i f := match ((R.pointSet r).pts)[ravel ext i]? with
    | some x => f x []
    | none => 0

/-- The coefficient with which component `z` of the wrapped value enters a component. -/
def compCoeff (z : List Nat) : Comp → K
  | .zero => 0
  | .entry neg ix => if ix = z then (if neg then -1 else 1) else 0

/-- The transposed placement: component `z` of the wrapped element collects the components of `g` to which
it was moved, with the same signs. -/
def unwrapValue (comps : Except Err (List Comp)) (g : List Nat → K) (z : List Nat) : K :=
  match comps with
  | .error _ => 0
  | .ok l => ((List.range l.length).map fun j =>
      (match l[j]? with
        | none => 0
        | some c => compCoeff z c) * g [j]).sum

mutual
/-- Degree of freedom `i` of an element applied to a function. -/
def dualValue (ψ : LeafDuals K) : Elem → List Nat → (List K → List Nat → K) → K
  | .leaf l, i, f => ψ.leaf l (i.headD 0) f
  | .tensorProduct fs, i, f => prodDualValue ψ fs i f
  | .flattened p, i, f => dualValue ψ p i f
  | .enriched _, _, _ => 0
  | .mixedSub _ _ _, _, _ => 0
  | .discontinuous e, i, f => dualValue ψ e i f
  | .tensorFE e shape transpose, i, f =>
    let r := shape.length
    let base := if transpose then i.drop r else i.take e.indexShape.length
    let comp := if transpose then i.take r else i.drop e.indexShape.length
    dualValue ψ e base fun x z => f x (comp ++ z)
  | .hdiv w, i, f => dualValue ψ w i fun x z => unwrapValue (selectHdiv w.factorsOf) (f x) z
  | .hcurl w, i, f => dualValue ψ w i fun x z => unwrapValue (selectHcurl w.factorsOf) (f x) z
  | .quadrature r _ ext, i, f => ψ.quad r ext i f
/-- Products of functionals: the functional of the first factor acts on the first variables. -/
def prodDualValue (ψ : LeafDuals K) : List Elem → List Nat → (List K → List Nat → K) → K
  | [], _, f => f [] []
  | e :: fs, i, f => dualValue ψ e (i.take e.indexShape.length) fun x z =>
      prodDualValue ψ fs (i.drop e.indexShape.length) fun y w => f (x ++ y) (z ++ w)
end

mutual
/-- Elements that have a dual basis: no sums and no mixed elements inside; the FIAT functionals are as
in `NodesOK`, one per basis function, on points of one dimension; the point sets of quadrature elements
have one index per axis of the index shape, created before `n`. -/
def DualOK (D : FiatDual K) (R : Rules K) (n : Nat) : Elem → Prop
  | .leaf l => NodesOK l.valueShape (D.nodes l) ∧ (D.nodes l).length = l.fns.length ∧
      ∃ d, ∀ nd ∈ D.nodes l, ∀ pt ∈ nd.ptDict.keys, pt.length = d
  | .tensorProduct fs => DualOKL D R n fs
  | .flattened p => DualOK D R n p
  | .enriched _ => False
  | .mixedSub _ _ _ => False
  | .discontinuous e => DualOK D R n e
  | .tensorFE e _ _ => DualOK D R n e
  | .hdiv w => DualOK D R n w
  | .hcurl w => DualOK D R n w
  | .quadrature r _ ext => (R.pointSet r).WF n ∧ (R.pointSet r).indices.map Index.extent = ext ∧ ext ≠ []
/-- ... for lists. -/
def DualOKL (D : FiatDual K) (R : Rules K) (n : Nat) : List Elem → Prop
  | [] => True
  | e :: es => DualOK D R n e ∧ DualOKL D R n es
end

mutual
/-- The identities of the point indices of the quadrature elements in a tree. -/
def quadIds (R : Rules K) : Elem → List Nat
  | .leaf _ => []
  | .tensorProduct fs => quadIdsL R fs
  | .flattened p => quadIds R p
  | .enriched _ => []
  | .mixedSub _ _ _ => []
  | .discontinuous e => quadIds R e
  | .tensorFE e _ _ => quadIds R e
  | .hdiv w => quadIds R w
  | .hcurl w => quadIds R w
  | .quadrature r _ _ => (R.pointSet r).indices.map Index.id
/-- ... for lists. -/
def quadIdsL (R : Rules K) : List Elem → List Nat
  | [] => []
  | e :: es => quadIds R e ++ quadIdsL R es
end

/-- `(Q, ps)` is a dual basis: contracted over the points and the value components with the values of any
function, `Q` gives all the functionals. The indices of the point set are distinct. -/
structure IsDualBasis (Q : Gem K) (ps : PSet K) (is vs : List Nat)
    (L : List Nat → (List K → List Nat → K) → K) : Prop where
  shape : Q.shape = is ++ vs
  distinct : (ps.indices.map Index.id).Nodup
  contract : ∀ ρ i f, List.Forall₂ (· < ·) i is →
    ((ndindex (ps.indices.map Index.extent)).map fun v => ((ndindex vs).map fun z =>
      Q.eval (bindIx ρ ps.indices v) (i ++ z) * f (ps.pointAt (bindIx ρ ps.indices v)) z).sum).sum = L i f

/-- What `dual_evaluation` expects of its argument: called with a point set, `fn` returns an expression
with the value shape, whose value is `f` at the current point. `f` may depend on argument indices. -/
def Evaluates (fn : PSet K → M (Gem K)) (f : (Nat → Nat) → List K → List Nat → K) (vs : List Nat) (n : Nat) :
    Prop :=
  ∀ ps m, n ≤ m → ps.WF m → ∃ t m', fn ps m = .ok (t, m') ∧ m ≤ m' ∧ t.shape = vs ∧
    ∀ ρ z, ps.Valid ρ → List.Forall₂ (· < ·) z vs → t.eval ρ z = f ρ (ps.pointAt ρ) z

/-- A function of the values of the indices does not depend on the given ones, nor on those not yet
created. -/
def IndependentOf {β : Type} (f : (Nat → Nat) → β) (ids : List Nat) (n : Nat) : Prop :=
  ∀ ρ ρ', (∀ k < n, k ∉ ids → ρ k = ρ' k) → f ρ = f ρ'

/-! ### Duality -/

/-- A functional that looks only at points with `d` coordinates and components in `vs`, and commutes with
scaling. -/
structure Lawful (d : Nat) (vs : List Nat) (L : (List K → List Nat → K) → K) : Prop where
  congr : ∀ f g, (∀ x z, x.length = d → List.Forall₂ (· < ·) z vs → f x z = g x z) → L f = L g
  smul : ∀ c f, L (fun x z => c * f x z) = c * L f

/-- The signed placement has `d` components and preserves inner products: every wrapped component goes to
exactly one place. -/
def Placement (K : Type) [CommRing K] (comps : Except Err (List Comp)) (d : Nat) (vs : List Nat) : Prop :=
  ∀ F G : List Nat → K,
    ((List.range d).map fun j => wrapValue comps F j * wrapValue comps G j).sum =
      ((ndindex vs).map fun z => F z * G z).sum

mutual
/-- The functionals `ψ` of the leaves are dual to the basis functions `φ` of the leaves. -/
def DualPair (φ : LeafVals K) (ψ : LeafDuals K) : Elem → Prop
  | .leaf l => (∀ i < l.fns.length, Lawful l.cell.spatialDim l.valueShape (ψ.leaf l i)) ∧
      ∀ i < l.fns.length, ∀ j < l.fns.length, ψ.leaf l i
        (fun x z => φ.leaf l (List.replicate l.cell.spatialDim 0) (l.cell.dimension, 0) x [j] z) =
          if i = j then 1 else 0
  | .tensorProduct fs => DualPairL φ ψ fs
  | .flattened p => DualPair φ ψ p
  | .enriched _ => False
  | .mixedSub _ _ _ => False
  | .discontinuous e => DualPair φ ψ e
  | .tensorFE e _ _ => DualPair φ ψ e
  | .hdiv w => DualPair φ ψ w ∧ Placement K (selectHdiv w.factorsOf) (sdim w) (vshape w)
  | .hcurl w => DualPair φ ψ w ∧ Placement K (selectHcurl w.factorsOf) (sdim w) (vshape w)
  | .quadrature r c ext => (∀ i, List.Forall₂ (· < ·) i ext → Lawful c.spatialDim [] (ψ.quad r ext i)) ∧
      ∀ i j, List.Forall₂ (· < ·) i ext → List.Forall₂ (· < ·) j ext →
        ψ.quad r ext i (fun x _ => φ.quad r c ext x j) = if i = j then 1 else 0
/-- ... for lists. -/
def DualPairL (φ : LeafVals K) (ψ : LeafDuals K) : List Elem → Prop
  | [] => True
  | e :: es => DualPair φ ψ e ∧ DualPairL φ ψ es
end

end FInAT.Spec
