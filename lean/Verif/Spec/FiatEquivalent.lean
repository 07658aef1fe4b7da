import Verif.Model.FiatEquivalent
import Verif.Spec.Basis
import Verif.Spec.Tab

/-!
# FIAT elements and their functions

What FIAT's composed elements are, stated independently of FInAT: functions have one number, and those of a product are
numbered with the second factor running fastest; sums and mixed elements list the functions of their parts one after the
other, mixed elements give every part the next free components.
-/

namespace FInAT.Spec

open FInAT

/-- The functions of the elements FIAT's composed elements start from. `leaf l α x k z`: component `z` of the derivative `α` of
function `k` at `x`. What `Hdiv` and `Hcurl` do to the values of a product is data too. -/
structure FiatVals (K : Type) where
  size : Leaf → Nat
  leaf : Leaf → List Nat → List K → Nat → List Nat → K
  quad : Nat → Cell → List Nat → List K → Nat → K
  hdiv : FTree → (List Nat → K) → Nat → K
  hcurl : FTree → (List Nat → K) → Nat → K

variable {K : Type} [CommRing K]

mutual
/-- Dimension of the cell. -/
def FTree.dim : FTree → Nat
  | .element l => l.cell.spatialDim
  | .quadrature _ c _ => c.spatialDim
  | .tensor a b => FTree.dim a + FTree.dim b
  | .flattened a => FTree.dim a
  | .enriched ts => FTree.dimHead ts
  | .mixed ts => FTree.dimHead ts
  | .discontinuous a => FTree.dim a
  | .hdiv a => FTree.dim a
  | .hcurl a => FTree.dim a
/-- The parts have the same cell. -/
def FTree.dimHead : List FTree → Nat
  | [] => 0
  | t :: _ => FTree.dim t
end

mutual
/-- Number of functions. -/
def FTree.size (ψ : FiatVals K) : FTree → Nat
  | .element l => ψ.size l
  | .quadrature _ _ ext => ext.prod
  | .tensor a b => FTree.size ψ a * FTree.size ψ b
  | .flattened a => FTree.size ψ a
  | .enriched ts => FTree.sizes ψ ts
  | .mixed ts => FTree.sizes ψ ts
  | .discontinuous a => FTree.size ψ a
  | .hdiv a => FTree.size ψ a
  | .hcurl a => FTree.size ψ a
/-- ... of all parts. -/
def FTree.sizes (ψ : FiatVals K) : List FTree → Nat
  | [] => 0
  | t :: ts => FTree.size ψ t + FTree.sizes ψ ts
end

mutual
/-- Value shape. -/
def FTree.shape : FTree → List Nat
  | .element l => l.valueShape
  | .quadrature _ _ _ => []
  | .tensor a b => FTree.shape a ++ FTree.shape b
  | .flattened a => FTree.shape a
  | .enriched ts => FTree.shapeHead ts
  | .mixed ts => [FTree.components ts]
  | .discontinuous a => FTree.shape a
  | .hdiv a => [FTree.dim a]
  | .hcurl a => [FTree.dim a]
/-- The parts of a sum have the same value shape. -/
def FTree.shapeHead : List FTree → List Nat
  | [] => []
  | t :: _ => FTree.shape t
/-- Number of components of all parts. -/
def FTree.components : List FTree → Nat
  | [] => 0
  | t :: ts => (FTree.shape t).prod + FTree.components ts
end

mutual
/-- Component `z` of the derivative `α` of function number `k` at the point `x` of the cell. -/
def fiatValue (ψ : FiatVals K) : FTree → List Nat → List K → Nat → List Nat → K
  | .element l, α, x, k, z => ψ.leaf l α x k z
  | .quadrature r c ext, _, x, k, _ => ψ.quad r c ext x k
  | .tensor a b, α, x, k, z =>
    fiatValue ψ a (α.take (FTree.dim a)) (x.take (FTree.dim a)) (k / FTree.size ψ b) (z.take (FTree.shape a).length) *
      fiatValue ψ b (α.drop (FTree.dim a)) (x.drop (FTree.dim a)) (k % FTree.size ψ b) (z.drop (FTree.shape a).length)
  | .flattened a, α, x, k, z => fiatValue ψ a α x k z
  | .enriched ts, α, x, k, z => fiatSum ψ ts α x k z
  | .mixed ts, α, x, k, z => fiatMixed ψ ts α x k (z.headD 0)
  | .discontinuous a, α, x, k, z => fiatValue ψ a α x k z
  | .hdiv a, α, x, k, z => ψ.hdiv a (fiatValue ψ a α x k) (z.headD 0)
  | .hcurl a, α, x, k, z => ψ.hcurl a (fiatValue ψ a α x k) (z.headD 0)
/-- The functions of the parts one after the other. -/
def fiatSum (ψ : FiatVals K) : List FTree → List Nat → List K → Nat → List Nat → K
  | [], _, _, _, _ => 0
  | t :: ts, α, x, k, z => if k < FTree.size ψ t then fiatValue ψ t α x k z else fiatSum ψ ts α x (k - FTree.size ψ t) z
/-- The functions of the parts one after the other, those of the first part in the first components, ... -/
def fiatMixed (ψ : FiatVals K) : List FTree → List Nat → List K → Nat → Nat → K
  | [], _, _, _, _ => 0
  | t :: ts, α, x, k, j =>
    if k < FTree.size ψ t then
      if j < (FTree.shape t).prod then fiatValue ψ t α x k (unravel (FTree.shape t) j) else 0
    else if j < (FTree.shape t).prod then 0
    else fiatMixed ψ ts α x (k - FTree.size ψ t) (j - (FTree.shape t).prod)
end

/-- The parts of a mixed element with `size` components take up the components from `offset` on one after the other. -/
def LaidOut (size : Nat) : Nat → List Elem → Prop
  | offset, [] => offset = size
  | offset, .mixedSub e n o :: es => n = size ∧ o = offset ∧ LaidOut size (offset + (vshape e).prod) es
  | _, _ :: _ => False

mutual
/-- The leaves of an element have the functions of their FIAT elements, `Hdiv` and `Hcurl` place components as FInAT's wrappers
do, and parts of mixed elements are laid out one after the other. -/
def SameParts (φ : LeafVals K) (ψ : FiatVals K) (runtime : Nat → Bool) : Elem → Prop
  | .leaf l => ψ.size l = l.fns.length ∧ ∀ α x k z, k < l.fns.length →
      ψ.leaf l α x k z = φ.leaf l α (l.cell.dimension, 0) x [k] z
  | .tensorProduct fs => SamePartsL φ ψ runtime fs
  | .flattened p => SameParts φ ψ runtime p
  | .enriched es => SamePartsL φ ψ runtime es ∧ (isMixed es → ∃ size, LaidOut size 0 es)
  | .mixedSub e _ _ => SameParts φ ψ runtime e
  | .discontinuous e => SameParts φ ψ runtime e
  | .tensorFE e _ _ => SameParts φ ψ runtime e
  | .hdiv w => SameParts φ ψ runtime w ∧ ∀ t, fiatEquivalent runtime w = .ok t → ∀ F j,
      ψ.hdiv t F j = wrapValue (selectHdiv w.factorsOf) F j
  | .hcurl w => SameParts φ ψ runtime w ∧ ∀ t, fiatEquivalent runtime w = .ok t → ∀ F j,
      ψ.hcurl t F j = wrapValue (selectHcurl w.factorsOf) F j
  | .quadrature r c ext => ∀ x i, InRange i ext → ψ.quad r c ext x (ravel ext i) = φ.quad r c ext x i
/-- ... for lists. -/
def SamePartsL (φ : LeafVals K) (ψ : FiatVals K) (runtime : Nat → Bool) : List Elem → Prop
  | [] => True
  | e :: es => SameParts φ ψ runtime e ∧ SamePartsL φ ψ runtime es
end

/-- `t` is the same element as `e` in FIAT: as many functions, the same value shape, and function number `ravel i` of `t` is
function `i` of `e`. -/
structure Equivalent (φ : LeafVals K) (ψ : FiatVals K) (e : Elem) (c : Cell) (vs : List Nat) (t : FTree) : Prop where
  dim : FTree.dim t = c.spatialDim
  size : FTree.size ψ t = e.spaceDim
  shape : FTree.shape t = vs
  value : ∀ α x i z, α.length = c.spatialDim → x.length = c.spatialDim → InRange i e.indexShape → InRange z vs →
    fiatValue ψ t α x (ravel e.indexShape i) z = basisValue φ e α (c.dimension, 0) x i z

end FInAT.Spec
