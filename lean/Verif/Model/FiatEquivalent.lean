import Verif.Model.Restrict

/-!
# `fiat_equivalent`

The FIAT element that an element is translated to. FIAT's classes are external: an expression tree `FTree` records which
constructors are called with which arguments. Checks that FIAT's constructors make are not modelled.
-/

namespace FInAT

/-- FIAT elements, as far as `fiat_equivalent` builds them: the element of a `FiatElement` (`finat/fiat_elements.py:88-91`),
`FIAT.QuadratureElement` (`quadrature_element.py:101`), `FIAT.TensorProductElement` (`tensor_product.py:82`),
`FIAT_FlattenedDimensions` (`cube.py:65`), `FIAT.EnrichedElement` and `FIAT.MixedElement` (`enriched.py:82-86`),
`FIAT.DiscontinuousElement` (`discontinuous.py:66`), `Hdiv` and `Hcurl` (`hdivcurl.py:116,144`). -/
inductive FTree where
  | element (l : Leaf)
  | quadrature (rule : Nat) (cell : Cell) (extents : List Nat)
  | tensor (a b : FTree)
  | flattened (a : FTree)
  | enriched (ts : List FTree)
  | mixed (ts : List FTree)
  | discontinuous (a : FTree)
  | hdiv (a : FTree)
  | hcurl (a : FTree)

/-- `EnrichedElement.is_mixed`, `finat/enriched.py:88-93`. -/
def isMixed (es : List Elem) : Bool := es.all isMixedSub

mutual
/-- `fiat_equivalent`: `finat/fiat_elements.py:88-91`, `tensor_product.py:78-82`, `cube.py:63-65`, `enriched.py:78-86`,
`discontinuous.py:64-66`, `hdivcurl.py:114-116,142-144`, `quadrature_element.py:88-101`; `MixedSubElement` and
`TensorFiniteElement` do not define it (`finiteelementbase.py:132-137`). `runtime r` says that the points of rule `r` are an
`UnknownPointSet`. The weights of quadrature elements are left out. -/
def fiatEquivalent (runtime : Nat → Bool) : Elem → Except Err FTree
  | .leaf l => .ok (.element l)
  | .tensorProduct fs =>
    if fs.length = 2 then do
      let ts ← fiatEquivalents runtime fs
      match ts with
      | [a, b] => pure (.tensor a b)
      | _ => .error .valueError
    else .error .valueError
  | .flattened p => do
    let t ← fiatEquivalent runtime p
    pure (.flattened t)
  | .enriched es =>
    if isMixed es then do
      let ts ← fiatEquivalentParts runtime es
      pure (.mixed ts)
    else do
      let ts ← fiatEquivalents runtime es
      pure (.enriched ts)
  | .mixedSub _ _ _ => .error .notImplemented
  | .discontinuous e => do
    let t ← fiatEquivalent runtime e
    pure (.discontinuous t)
  | .tensorFE _ _ _ => .error .notImplemented
  | .hdiv w => do
    let t ← fiatEquivalent runtime w
    pure (.hdiv t)
  | .hcurl w => do
    let t ← fiatEquivalent runtime w
    pure (.hcurl t)
  | .quadrature r c ext => if runtime r then .error .valueError else .ok (.quadrature r c ext)
/-- `(e.fiat_equivalent for e in self.elements)`, `finat/enriched.py:85-86`; `finat/tensor_product.py:81-82`. -/
def fiatEquivalents (runtime : Nat → Bool) : List Elem → Except Err (List FTree)
  | [] => .ok []
  | e :: es => do
    let t ← fiatEquivalent runtime e
    let ts ← fiatEquivalents runtime es
    pure (t :: ts)
/-- `e.element.fiat_equivalent` of a `MixedSubElement`, `finat/enriched.py:82` (other classes do not get here). -/
def fiatEquivalentPart (runtime : Nat → Bool) : Elem → Except Err FTree
  | .mixedSub e _ _ => fiatEquivalent runtime e
  | _ => .error .attributeError
/-- `[e.element.fiat_equivalent for e in self.elements]`, `finat/enriched.py:82-83`. -/
def fiatEquivalentParts (runtime : Nat → Bool) : List Elem → Except Err (List FTree)
  | [] => .ok []
  | e :: es => do
    let t ← fiatEquivalentPart runtime e
    let ts ← fiatEquivalentParts runtime es
    pure (t :: ts)
end

end FInAT
