import Verif.Model.Ufl.Elem

/-!
# Components of mixed UFL elements

Model of `extract_subelement_reference_component` and `extract_reference_component`.
A component index is a tuple of integers; a plain integer `i` stands for `(i,)`.
-/

namespace FInAT.Ufl

open UElem

/-- `shape_to_strides` (external, `ufl.utils.indexflattening`).
External; used at `finat/ufl/mixedelement.py` 208. -/
def shapeToStrides : List Nat → List Nat
  | [] => []
  | _ :: ns => prodNat ns :: shapeToStrides ns

/-- `unflatten_index` (external, `ufl.utils.indexflattening`). A stride of zero would be a
`ZeroDivisionError`; it does not occur for an index below the product of the shape.
External; used at `finat/ufl/mixedelement.py` 209. -/
def unflattenIndex (i : Nat) : List Nat → List Nat
  | [] => []
  | s :: ss => i / s :: unflattenIndex (i % s) ss

/-- `all(j < k for (j, k) in zip(i, sh))`.
Source: `finat/ufl/finiteelementbase.py` 176. -/
def allBelow : List Int → List Nat → Bool
  | j :: js, k :: ks => decide (j < k) && allBelow js ks
  | _, _ => true

/-- `_check_reference_component` (`finat/ufl/finiteelementbase.py` 170-177). -/
def checkComponent (shape : List Nat) (i : List Int) : Except Err Unit :=
  if i.length = shape.length ∧ allBelow i shape = true then .ok () else .error .valueError

/-- The search for the sub-element of an index (`finat/ufl/mixedelement.py` 197-204): number
and shape of the sub-element and what is left of the index. After the last sub-element
the loop ends with what is left. -/
def findSub : List (List Nat) → Nat → Int → Nat × List Nat × Int
  | [], k, j => (k, [], j)
  | [sh], k, j =>
    if j < prodNat sh then (k, sh, j) else (k, sh, j - prodNat sh)
  | sh :: shs, k, j =>
    if j < prodNat sh then (k, sh, j) else findSub shs (k + 1) (j - prodNat sh)

/-- `extract_subelement_reference_component` (`finat/ufl/mixedelement.py` 183-210) of an
element of the given shape with sub-elements of the given shapes. -/
def extractSub (shape : List Nat) (subs : List (List Nat)) (i : List Int) :
    Except Err (Nat × List Nat) := do
  let _ ← checkComponent shape i
  match shape, i with
  | [_], [j] =>
    let (k, sh, j) := findSub subs 0 j
    if j < 0 then .error .valueError
    else .ok (k, unflattenIndex j.toNat (shapeToStrides sh))
  | _, _ => .error .assertionError

/-- `extract_subelement_reference_component` of an element; elements without
sub-elements return no number (`finat/ufl/finiteelementbase.py` 179-187). -/
def extractSubRef (e : UElem) (i : List Int) : Except Err (Option Nat × List Int) :=
  match e with
  | .mixed b subs => do
    let (k, c) ← extractSub b.shape (← shapes subs) i
    .ok (some k, c.map Int.ofNat)
  | .vector b s dim _ => do
    let (k, c) ← extractSub b.shape (List.replicate dim (← s.shape)) i
    .ok (some k, c.map Int.ofNat)
  | .tensor b s _ _ _ count _ _ => do
    let (k, c) ← extractSub b.shape (List.replicate count (← s.shape)) i
    .ok (some k, c.map Int.ofNat)
  | e => do
    let _ ← checkComponent (← e.shape) i
    .ok (none, i)

mutual
/-- `extract_reference_component` (`finat/ufl/mixedelement.py` 212-218 and
`finiteelementbase.py` 189-197). -/
def extractRef : UElem → List Int → Except Err (List Int × UElem)
  | .mixed b subs, i => do
    let (k, c) ← extractSub b.shape (← shapes subs) i
    extractNth subs k (c.map Int.ofNat)
  | .vector b s dim _, i => do
    let (k, c) ← extractSub b.shape (List.replicate dim (← s.shape)) i
    if k < dim then extractRef s (c.map Int.ofNat) else .error .indexError
  | .tensor b s _ _ _ count _ _, i => do
    let (k, c) ← extractSub b.shape (List.replicate count (← s.shape)) i
    if k < count then extractRef s (c.map Int.ofNat) else .error .indexError
  | e, i => do
    let _ ← checkComponent (← e.shape) i
    .ok (i, e)
/-- `extract_reference_component` of the sub-element with the given number.
Source: `finat/ufl/mixedelement.py` 218. -/
def extractNth : List UElem → Nat → List Int → Except Err (List Int × UElem)
  | [], _, _ => .error .indexError
  | e :: _, 0, i => extractRef e i
  | _ :: es, k + 1, i => extractNth es k i
end

end FInAT.Ufl
