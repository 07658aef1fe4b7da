import Verif.Model.Ufl.Elem
import Mathlib.Data.List.Forall2

/-!
# Specification vocabulary for UFL element trees
-/

namespace FInAT.Ufl

open UElem

/-- A multi-index within a shape. -/
def Within (c sh : List Nat) : Prop := List.Forall₂ (· < ·) c sh

/-- The position of a multi-index in the row-major order of the shape. -/
def rowMajor : List Nat → List Nat → Nat
  | _ :: ns, i :: is => i * ns.foldr (· * ·) 1 + rowMajor ns is
  | _, _ => 0

/-- The number of components before those of the sub-element with number `k`. -/
def offsetOf (shapes : List (List Nat)) (k : Nat) : Nat :=
  ((shapes.take k).map fun sh => sh.foldr (· * ·) 1).sum

/-- The number of components of all sub-elements. -/
def totalSize (shapes : List (List Nat)) : Nat :=
  (shapes.map fun sh => sh.foldr (· * ·) 1).sum

mutual
/-- The components of an element in order, each as a component of an element without
sub-elements. -/
def leafComponents : UElem → List (List Int × UElem)
  | .mixed _ subs => leafComponentss subs
  | .vector _ s dim _ => (List.replicate dim (leafComponents s)).flatten
  | .tensor _ s _ _ _ count _ _ => (List.replicate count (leafComponents s)).flatten
  | e => match e.shape with
    | .ok sh => (indicesOf sh).map fun c => (c.map Int.ofNat, e)
    | .error _ => []
/-- The components of several elements, one after the other. -/
def leafComponentss : List UElem → List (List Int × UElem)
  | [] => []
  | e :: es => leafComponents e ++ leafComponentss es
end

mutual
/-- All mixed elements in the tree have components numbered by one index: vectors and
tensors are made of scalar elements, and a tensor has one index or symmetries. -/
def OneIndex : UElem → Prop
  | .mixed _ subs => OneIndexs subs
  | .vector _ s _ _ => s.shape = .ok [] ∧ OneIndex s
  | .tensor b s _ _ _ count _ _ => b.shape = [count] ∧ s.shape = .ok [] ∧ OneIndex s
  | _ => True
/-- All elements of a list are so. -/
def OneIndexs : List UElem → Prop
  | [] => True
  | e :: es => OneIndex e ∧ OneIndexs es
end

/-- Mixed, vector and tensor elements. -/
def HasSubs : UElem → Prop
  | .mixed .. => True
  | .vector .. => True
  | .tensor .. => True
  | _ => False

/-- `a ≤ b` for degrees that Python can compare. -/
def Deg.le (a b : Deg) : Prop := a = b ∨ a.lt b = .ok true

/-- The inclusions between neighbouring Sobolev spaces. -/
inductive Sobolev.Step : Sobolev → Sobolev → Prop
  | hInf_h2 : Step .hInf .h2
  | h2_h1 : Step .h2 .h1
  | h1_hDiv : Step .h1 .hDiv
  | h1_hCurl : Step .h1 .hCurl
  | hDiv_l2 : Step .hDiv .l2
  | hCurl_l2 : Step .hCurl .l2
  | hEin_l2 : Step .hEin .l2
  | hDivDiv_l2 : Step .hDivDiv .l2
  | hCurlDiv_l2 : Step .hCurlDiv .l2

/-- The first space is contained in the second. -/
inductive Sobolev.Sub : Sobolev → Sobolev → Prop
  | refl (s) : Sub s s
  | step {a b c} (h : Step a b) (h' : Sub b c) : Sub a c

end FInAT.Ufl
