import Verif.Model.Tabulate

/-!
# Restriction of elements to entities
-/

namespace FInAT

open Elem

/-- Restriction domains (strings in Python); `other` is any other string.
Source: `finat/restricted.py` 119-147. -/
inductive Domain where
  | interior
  | facet
  | face
  | edge
  | vertex
  | other
deriving DecidableEq, Repr

/-- `r_to_codim(restriction, dim)`, `finat/restricted.py:119-131`. -/
def rToCodim (r : Domain) (dim : Int) : Except Err Int :=
  match r with
  | .interior => .ok 0
  | .facet => .ok 1
  | .face => .ok (dim - 2)
  | .edge => .ok (dim - 1)
  | .vertex => .ok dim
  | .other => .error .valueError

/-- `codim_to_r(codim, dim)`, `finat/restricted.py:134-147`. -/
def codimToR (codim dim : Int) : Except Err Domain :=
  let d := dim - codim
  if codim = 0 then .ok .interior
  else if codim = 1 then .ok .facet
  else if d = 0 then .ok .vertex
  else if d = 1 then .ok .edge
  else if d = 2 then .ok .face
  else .error .valueError

/-- What `restrict` can return: an element, the sentinel `null_element`, or something that is not an
element: the exception object line 29 returns instead of raising, or an element containing it.
Source: `finat/restricted.py` 12-13, 29. -/
inductive RRes where
  | elem (e : Elem)
  | null
  | notElem

/-- The dofs on all entities of one dimension: `for entity, dofs in sorted(entity_dofs[dim].items())`;
`KeyError` when there is no such dimension.
External; used at `finat/restricted.py` 35-36. -/
def dofsOfDim (d : EntityDofs) (dim : Dim) : Except Err (List Nat) := do
  let ents ← d.get dim
  pure ((sortBy (fun a b => decide (a.1 ≤ b.1)) ents).flatMap Prod.snd)

/-- FIAT's `restricted._get_indices(element, restriction_domain, take_closure)` (transcription): the dofs on
entities of the dimension of the domain and, with `take_closure`, of all lower dimensions; the closure is never
taken for `"interior"`. An unknown domain raises `RuntimeError`, a dimension the cell does not have
`KeyError`.
External; used at `finat/restricted.py` 35-36. -/
def fiatIndices (l : Leaf) (dom : Domain) (closure : Bool) : Except Err (List Nat) :=
  let n : Int := l.cell.spatialDim
  let upTo (rdim : Int) : Except Err (List Nat) :=
    if rdim < 0 then .error .keyError
    else do
      let dims := if closure then (List.range (rdim.toNat + 1)).reverse else [rdim.toNat]
      let ls ← dims.mapM fun k => dofsOfDim l.dofs (.int k)
      pure ls.flatten
  match dom with
  | .interior => dofsOfDim l.dofs l.cell.dimension
  | .facet => upTo (n - 1)
  | .face => upTo 2
  | .edge => upTo 1
  | .vertex => upTo 0
  | .other => .error .runtimeError

/-- The inner loop of FIAT's `RestrictedElement.__init__` over the entities of one dimension: kept dofs get
consecutive numbers. Returns the new dictionary, the kept old dofs and the counter.
External; used at `finat/restricted.py` 35-36. -/
def renumberEnts (indices : List Nat) : Dict Nat (List Nat) → Nat → Dict Nat (List Nat) × List Nat × Nat
  | [], c => ([], [], c)
  | (e, l) :: ents, c =>
    let kept := l.filter fun v => decide (v ∈ indices)
    let r := renumberEnts indices ents (c + kept.length)
    ((e, (List.range kept.length).map (c + ·)) :: r.1, kept ++ r.2.1, r.2.2)

/-- The outer loop, over the dimensions.
External; used at `finat/restricted.py` 35-36. -/
def renumber (indices : List Nat) : EntityDofs → Nat → EntityDofs × List Nat × Nat
  | [], c => ([], [], c)
  | (dim, ents) :: d, c =>
    let r := renumberEnts indices ents c
    let r' := renumber indices d r.2.2
    ((dim, r.1) :: r'.1, r.2.1 ++ r'.2.1, r'.2.2)

/-- The restricted FIAT element for the given dofs: the kept functions in the order in which the loop over the
entities meets their dofs; cell, form degree, mapping and value shape are those of the element. (FIAT recomputes
the degree; the model keeps it.)
External; used at `finat/restricted.py` 35-36, 212. -/
def restrictedLeaf (l : Leaf) (indices : List Nat) : Leaf :=
  { l with
    kind := .fiat
    fns := (renumber indices l.dofs 0).2.1.filterMap fun v => l.fns[v]?
    dofs := (renumber indices l.dofs 0).1 }

/-- `FiatElement(FIAT.RestrictedElement(element, restriction_domain, take_closure))`,
`finat/restricted.py:32-38`, with FIAT's constructor transcribed: it raises `ValueError`, caught in line 37, when nothing is left. -/
def restrictFiat (l : Leaf) (dom : Domain) (closure : Bool) : Except Err RRes := do
  let indices ← fiatIndices l dom closure
  if indices = [] then pure .null
  else pure (.elem (.leaf (restrictedLeaf l indices)))

/-- `all(d <= factor.cell.get_dimension() for d, factor in zip(candidate, factors))`,
`finat/restricted.py:176-177`: comparing an integer with the tuple of a product cell raises `TypeError`. -/
def fitsCells : List Int → List Cell → Except Err Bool
  | d :: ds, c :: cs => match c.dimension with
    | .int n => if d ≤ n then fitsCells ds cs else .ok false
    | .tup _ => .error .typeError
  | _, _ => .ok true

/-- `mis(m, c)` for an integer `c`: no tuples for negative `c`, except `[(c,)]` when `m = 1`.
External; used at `finat/restricted.py` 177-178. -/
def misInt (m : Nat) (c : Int) : List (List Int) :=
  if c < 0 then (if m = 1 then [[c]] else []) else (mis m c.toNat).map (List.map Int.ofNat)

/-- `range(a, b)`.
Source: `finat/restricted.py` 178. -/
def intRange (a b : Int) : List Int := (List.range (b - a).toNat).map fun (k : Nat) => a + k

/-- `(x for x in l if p(x))` when `p` may raise.
Source: `finat/restricted.py` 176-180. -/
def filterE {α : Type} (p : α → Except Err Bool) : List α → Except Err (List α)
  | [] => .ok []
  | a :: l => do
    let b ← p a
    let l' ← filterE p l
    pure (if b then a :: l' else l')

/-- The restrictions of the factors, `finat/restricted.py:168-177`. -/
def decompositions (cs : List Cell) (dom : Domain) (closure : Bool) : Except Err (List (List Int)) := do
  let dimension : Int := Cell.spatialDimL cs
  let codim ← rToCodim dom dimension
  let upper := 1 + (if closure && dom ≠ .interior then dimension else codim)
  filterE (fun δ => fitsCells δ cs) ((intRange codim upper).flatMap (misInt cs.length))

/-- Is the element a `MixedSubElement`?
Source: `finat/restricted.py` 67, 74. -/
def isMixedSub : Elem → Bool
  | .mixedSub _ _ _ => true
  | _ => false

/-- Drop the null elements (`elements = tuple(e for e in elements if e is not null_element)`); `none` when
one of the others is not an element.
Source: `finat/restricted.py` 81. -/
def nonNull : List RRes → Option (List Elem)
  | [] => some []
  | .null :: rs => nonNull rs
  | .notElem :: _ => none
  | .elem e :: rs => (nonNull rs).map (e :: ·)

/-- `if all(f is not null_element for f in new_factors)`: `some none` when one is null.
Source: `finat/restricted.py` 192. -/
def allFactors : List RRes → Option (List RRes)
  | [] => some []
  | .null :: _ => none
  | r :: rs => (allFactors rs).map (r :: ·)

/-- The body of the loop over the decompositions after the recursive calls, `finat/restricted.py:188-191`:
`TensorProductElement(new_factors)` unless one of them is null. Something that is not an element has no
`value_shape`. -/
def restrictedProduct (rs : List RRes) : Except Err (Option Elem) :=
  match allFactors rs with
  | none => .ok none
  | some _ => match nonNull rs with
    | none => .error .attributeError
    | some fs => do
      let e ← mkTensorProduct fs
      pure (some e)

/-- `EnrichedElement(wrap(e) for e in restricted.elements)` or `wrap(restricted)`,
`finat/restricted.py:94-98,107-111`. -/
def wrapRestricted (wrap : Elem → Except Err Elem) : Elem → Except Err RRes
  | .enriched es => do
    let ws ← es.mapM wrap
    pure (.elem (mkEnriched ws))
  | e => do
    let w ← wrap e
    pure (.elem w)

mutual
/-- `restrict(element, domain, take_closure)`, `finat/restricted.py:16-214`, by cases on the element type.
`HDivTrace` ignores `take_closure` (lines 209-214). A `FlattenedDimensions` needs the cell of what it wraps. -/
def restrict : Elem → Domain → Bool → Except Err RRes
  | .leaf l, dom, closure => match l.kind with
    | .fiat => restrictFiat l dom closure
    | .dg => .ok (if dom = .interior then .elem (.leaf l) else .null)
    | .trace => restrictFiat l dom true
    | .physicallyMapped => .error .notImplemented
    | .other => .ok .notElem
  | .tensorProduct fs, dom, closure => do
    let cs ← cellL fs
    let δs ← decompositions cs dom closure
    let prods ← δs.mapM fun δ => do
      let rs ← restrictFactors fs δ
      restrictedProduct rs
    let elements := prods.filterMap id
    if elements = [] then pure .null else pure (.elem (mkEnriched elements))
  | .flattened p, dom, closure => do
    let r ← restrict p dom closure
    match r with
    | .null => pure .null
    | .notElem => .error .attributeError
    | .elem e => do
      let _ ← e.cell
      pure (.elem (.flattened e))
  | .enriched es, dom, closure =>
    if es.all isMixedSub then do
      let rs ← restrictSubs es dom closure
      match nonNull rs with
      | none => .error .attributeError
      | some [] => pure .null
      | some fs => do
        let e ← mkMixed fs
        pure (.elem e)
    else if es.any isMixedSub then .error .notImplemented
    else do
      let rs ← restrictL es dom closure
      match nonNull rs with
      | none => pure .notElem
      | some [] => pure .null
      | some fs => pure (.elem (mkEnriched fs))
  | .mixedSub _ _ _, _, _ => .error .assertionError
  | .discontinuous e, dom, _ => .ok (if dom = .interior then .elem (.discontinuous e) else .null)
  | .tensorFE e shape transpose, dom, closure => do
    let r ← restrict e dom closure
    match r with
    | .null => pure .null
    | .notElem => pure .notElem
    | .elem e' => pure (.elem (.tensorFE e' shape transpose))
  | .hdiv w, dom, closure => do
    let r ← restrict w dom closure
    match r with
    | .null => pure .null
    | .notElem => .error .assertionError
    | .elem e => wrapRestricted mkHDiv e
  | .hcurl w, dom, closure => do
    let r ← restrict w dom closure
    match r with
    | .null => pure .null
    | .notElem => .error .assertionError
    | .elem e => wrapRestricted mkHCurl e
  | .quadrature _ _ _, _, _ => .ok .notElem
/-- `tuple(restrict(e, domain, take_closure) for e in elements)`.
Source: `finat/restricted.py` 75-76. -/
def restrictL : List Elem → Domain → Bool → Except Err (List RRes)
  | [], _, _ => .ok []
  | e :: es, dom, closure => do
    let r ← restrict e dom closure
    let rs ← restrictL es dom closure
    pure (r :: rs)
/-- `tuple(restrict(e.element, domain, take_closure) for e in element.elements)` for mixed sub-elements.
Source: `finat/restricted.py` 71-72. -/
def restrictSubs : List Elem → Domain → Bool → Except Err (List RRes)
  | [], _, _ => .ok []
  | .mixedSub e _ _ :: es, dom, closure => do
    let r ← restrict e dom closure
    let rs ← restrictSubs es dom closure
    pure (r :: rs)
  | _ :: _, _, _ => .error .attributeError
/-- The restricted factors of one decomposition, `finat/restricted.py:184-187`. -/
def restrictFactors : List Elem → List Int → Except Err (List RRes)
  | f :: fs, k :: ks => do
    let c ← f.cell
    let dim : Int ← match c.dimension with
      | .int n => .ok (n : Int)
      | .tup _ => .error .typeError
    let dom ← codimToR k dim
    let r ← restrict f dom false
    let rs ← restrictFactors fs ks
    pure (r :: rs)
  | _, _ => .ok []
end

/-- `RestrictedElement(element, restriction_domain)`, `finat/restricted.py:217-247` (without `indices`, which
are refused). -/
def restrictedElement (e : Elem) (dom : Domain) : Except Err RRes := do
  let r ← restrict e dom true
  match r with
  | .null => .error .valueError
  | r => pure r

end FInAT
