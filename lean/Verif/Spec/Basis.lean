import Verif.Model.Tabulate
import Verif.Spec.Elem

/-!
# What the basis functions of composite elements are

`basisValue φ e α ent x i z`: component `z` of the derivative `α` of basis function `i` of `e`, at the
point `x` of the entity `ent`, given the basis functions `φ` of the leaves. This is the mathematical
definition of the composite elements: products of functions of the factors, blocks of functions of the
summands, functions placed into a stretch of a mixed vector, functions times unit tensors, signed
placement into H(div)/H(curl) vectors. Multi-indices, points and derivatives are lists.
-/

namespace FInAT.Spec

open FInAT

/-- Basis functions of the leaves: `leaf l α ent x i z` for FIAT elements, `quad r c ext x i` for
quadrature elements (which have no derivatives and are scalar). -/
structure LeafVals (K : Type) where
  leaf : Leaf → List Nat → Dim × Nat → List K → List Nat → List Nat → K
  quad : Nat → Cell → List Nat → List K → List Nat → K

/-- Spatial dimension of the cell of an element. -/
def sdim (e : Elem) : Nat := match e.cell with
  | .ok c => c.spatialDim
  | .error _ => 0

/-- Value shape of an element. -/
def vshape (e : Elem) : List Nat := match e.valueShape with
  | .ok s => s
  | .error _ => []

/-- The entities of the factors that make up an entity of a product cell: see `C05`. -/
def factorEnts (fs : List Elem) (ent : Dim × Nat) : List (Dim × Nat) :=
  match Elem.cellL fs >>= fun cs => factorEntity cs (some ent) with
  | .ok es => es
  | .error _ => []

/-- The entity of the product cell that makes up an entity of the flattened cell: see `C06`. -/
def productEnt (p : Elem) (ent : Dim × Nat) : Dim × Nat :=
  match unflattenEntity p (some ent) with
  | .ok e => e
  | .error _ => ent

/-- Signed selection of a component. -/
def compValue {K : Type} [CommRing K] (F : List Nat → K) : Comp → K
  | .zero => 0
  | .entry false ix => F ix
  | .entry true ix => - F ix

/-- Component `j` of a vector given by a list of signed selections. -/
def wrapValue {K : Type} [CommRing K] (comps : Except Err (List Comp)) (F : List Nat → K) (j : Nat) : K :=
  match comps with
  | .error _ => 0
  | .ok l => match l[j]? with
    | none => 0
    | some c => compValue F c

variable {K : Type} [CommRing K]

mutual
/-- Component `z` of the derivative `α` of basis function `i` at the point `x` of entity `ent`. -/
def basisValue (φ : LeafVals K) : Elem → List Nat → Dim × Nat → List K → List Nat → List Nat → K
  | .leaf l, α, ent, x, i, z => φ.leaf l α ent x i z
  | .tensorProduct fs, α, ent, x, i, z => prodValue φ fs α (factorEnts fs ent) x i z
  | .flattened p, α, ent, x, i, z => basisValue φ p α (productEnt p ent) x i z
  | .enriched es, α, ent, x, i, z => sumValue φ es α ent x (i.headD 0) z
  | .mixedSub e _ offset, α, ent, x, i, z =>
    let j := z.headD 0
    if offset ≤ j ∧ j < offset + (vshape e).prod then
      basisValue φ e α ent x i (unravel (vshape e) (j - offset))
    else 0
  | .discontinuous e, α, ent, x, i, z => basisValue φ e α ent x i z
  | .tensorFE e shape transpose, α, ent, x, i, z =>
    let r := shape.length
    let base := if transpose then i.drop r else i.take e.indexShape.length
    let comp := if transpose then i.take r else i.drop e.indexShape.length
    if comp = z.take r then basisValue φ e α ent x base (z.drop r) else 0
  | .hdiv w, α, ent, x, i, z =>
    wrapValue (selectHdiv w.factorsOf) (basisValue φ w α ent x i) (z.headD 0)
  | .hcurl w, α, ent, x, i, z =>
    wrapValue (selectHcurl w.factorsOf) (basisValue φ w α ent x i) (z.headD 0)
  | .quadrature r c ext, _, _, x, i, _ => φ.quad r c ext x i
/-- Product of functions of the factors: the derivative, the point, the index and the component are
cut into consecutive pieces, one per factor. -/
def prodValue (φ : LeafVals K) :
    List Elem → List Nat → List (Dim × Nat) → List K → List Nat → List Nat → K
  | [], _, _, _, _, _ => 1
  | _ :: _, _, [], _, _, _ => 0
  | f :: fs, α, e :: es, x, i, z =>
    basisValue φ f (α.take (sdim f)) e (x.take e.1.total) (i.take f.indexShape.length)
        (z.take (vshape f).length) *
      prodValue φ fs (α.drop (sdim f)) es (x.drop e.1.total) (i.drop f.indexShape.length)
        (z.drop (vshape f).length)
/-- Function number `k` of a sum of elements: the functions of the summands one after another, those
of one summand in row-major order. -/
def sumValue (φ : LeafVals K) : List Elem → List Nat → Dim × Nat → List K → Nat → List Nat → K
  | [], _, _, _, _, _ => 0
  | e :: es, α, ent, x, k, z =>
    if k < e.spaceDim then basisValue φ e α ent x (unravel e.indexShape k) z
    else sumValue φ es α ent x (k - e.spaceDim) z
end

end FInAT.Spec
