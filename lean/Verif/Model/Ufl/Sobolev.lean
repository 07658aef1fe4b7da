import Verif.Model.Ufl.Elem

/-!
# Sobolev spaces of UFL elements (`sobolev_space` in `finat/ufl`)

The spaces themselves are external (`ufl.sobolevspace`); their parents are transcribed here.
Directional spaces, which products of different factors have, are not modelled: the space
of an element is `none` when it is one of those, or when Python raises.
-/

namespace FInAT.Ufl

open UElem

/-- `s.parents` (external, `ufl.sobolevspace`): the larger spaces, all of them.
External; used at `finat/ufl/enrichedelement.py` 71-75. -/
def Sobolev.parents : Sobolev → List Sobolev
  | .l2 => []
  | .hDiv => [.l2]
  | .hCurl => [.l2]
  | .hEin => [.l2]
  | .hDivDiv => [.l2]
  | .hCurlDiv => [.l2]
  | .h1 => [.hDiv, .hCurl, .l2]
  | .h2 => [.h1, .hDiv, .hCurl, .l2]
  | .hInf => [.h2, .h1, .hDiv, .hCurl, .l2]

/-- `a > b` for spaces: `functools.total_ordering` (external) derives it from
`a < b`, which is `b in a.parents` (external, `ufl.sobolevspace`).
External; used at `finat/ufl/mixedelement.py` 119. -/
def Sobolev.gt (a b : Sobolev) : Bool := !(a.parents.contains b) && !(a == b)

/-- The loop of Python's `max` after the first item.
External; used at `finat/ufl/mixedelement.py` 119. -/
def spaceMaxFrom (m : Sobolev) : List Sobolev → Sobolev
  | [] => m
  | s :: ss => spaceMaxFrom (if s.gt m then s else m) ss

/-- `max` of the spaces of the sub-elements (`finat/ufl/mixedelement.py` 116-119);
`ValueError` for none. -/
def mixedSobolev : List Sobolev → Except Err Sobolev
  | [] => .error .valueError
  | s :: ss => .ok (spaceMaxFrom s ss)

/-- `set.intersection(*superspaces)` with `superspaces = [{s} | set(s.parents) for s in spaces]`
(`finat/ufl/enrichedelement.py` 69-71). Sets are lists without repetitions. -/
def commonSuperspaces : List Sobolev → List Sobolev
  | [] => []
  | s :: ss => (s :: s.parents).filter fun t => ss.all fun u => (u :: u.parents).contains t

/-- `for s in intersect.copy(): for parent in s.parents: intersect.discard(parent)`
(`finat/ufl/enrichedelement.py` 72-74). -/
def discardParents (l : List Sobolev) : List Sobolev :=
  l.foldl (fun acc s => s.parents.foldl (fun acc p => acc.filter (· != p)) acc) l

/-- `EnrichedElementBase.sobolev_space` from the spaces of the sub-elements
(`finat/ufl/enrichedelement.py` 61-78): `ValueError` when not exactly one space is left. -/
def enrichedSobolev : List Sobolev → Except Err Sobolev
  | [] => .error .indexError
  | s :: ss =>
    if ss.all (· == s) then .ok s
    else match discardParents (commonSuperspaces (s :: ss)) with
      | [r] => .ok r
      | _ => .error .valueError

/-- The common space of the factors of a product (`finat/ufl/tensorproductelement.py`
81-88); otherwise the space is directional, `none`. -/
def productSobolev : List Sobolev → Option Sobolev
  | [] => none
  | s :: ss => if ss.all (· == s) then some s else none

mutual
/-- `e.sobolev_space`: `finat/ufl/finiteelement.py` 194-197, `mixedelement.py` 116-119,
`enrichedelement.py` 61-78, `tensorproductelement.py` 79-95, `hdivcurl.py` 65, 124, 211-216,
`restrictedelement.py` 44-49, `brokenelement.py` 39-41. `none` when the space is
directional, depends on one that is, or when Python raises. -/
def sobolev : UElem → Option Sobolev
  | .fe _ _ s _ _ _ => some s
  | .mixed _ subs => do (mixedSobolev (← sobolevs subs)).toOption
  | .vector _ e dim _ => do
    (mixedSobolev (← (if dim = 0 then some [] else do some (List.replicate dim (← sobolev e))))).toOption
  | .tensor _ e _ _ _ count _ _ => do
    (mixedSobolev (← (if count = 0 then some [] else
      do some (List.replicate count (← sobolev e))))).toOption
  | .product _ subs => do productSobolev (← sobolevs subs)
  | .enriched _ _ subs => do (enrichedSobolev (← sobolevs subs)).toOption
  | .hdiv _ _ => some .hDiv
  | .hcurl _ _ => some .hCurl
  | .withMapping e m => if e.mapping = m then sobolev e else some .l2
  | .restricted _ e d => if d = "interior" then some .l2 else sobolev e
  | .broken _ _ => some .l2
/-- The spaces of a list of elements.
Source: `finat/ufl/enrichedelement.py` 70. -/
def sobolevs : List UElem → Option (List Sobolev)
  | [] => some []
  | e :: es => do
    let s ← sobolev e
    some (s :: (← sobolevs es))
end

end FInAT.Ufl
