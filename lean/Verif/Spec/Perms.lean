import Verif.Model.PermTree
import Verif.Spec.Elem

/-!
# Specification vocabulary for entity permutations
-/

namespace FInAT.Spec

open FInAT

/-- The permutation stored for a dimension, entity and orientation. -/
def permOn (d : PermMap) (dim : Dim) (e : Nat) (o : Dim) : Option (List Nat) :=
  ((d.get? dim).bind fun x => x.get? e).bind fun x => x.get? o

/-- All keys of the nested dictionary are distinct at every level (as in any Python dictionary). -/
def DictKeys (d : PermMap) : Prop :=
  d.keys.Nodup ∧ ∀ x ∈ d, x.2.keys.Nodup ∧ ∀ y ∈ x.2, y.2.keys.Nodup

/-- Consecutive blocks: each list is shifted by the total length of the preceding ones. -/
def blocks (ps : List (List Nat)) : List Nat := shiftedConcat 0 (ps.map fun p => (p.length, p))

/-- Apply a permutation list to a list: entry `k` of the result is entry `p[k]`. -/
def act {α : Type} (p : List Nat) (l : List α) : List α := p.filterMap fun i => l[i]?

/-- The orientations listed for an entity, each with its permutation (empty when the entity is missing). -/
def orients (m : PermMap) (dim : Dim) (e : Nat) : Dict Dim (List Nat) :=
  ((m.get? dim).bind fun x => x.get? e).getD []

/-- The table has exactly the entities of the topology `top` (a list of dimensions with the number of entities), and
no key twice. -/
structure PermTable (top : List (Dim × Nat)) (m : PermMap) : Prop where
  dims : (m.map Prod.fst).Perm (top.map Prod.fst)
  ents : ∀ p ∈ top, ∃ ents, (p.1, ents) ∈ m ∧ (ents.map Prod.fst).Perm (List.range p.2) ∧
    ∀ q ∈ ents, q.2.keys.Nodup

/-- The permutations fit the dofs `d`: every list stored for an entity is a permutation of `0, ..., n-1`, `n` the
number of dofs on this entity. -/
structure PermsFit (top : List (Dim × Nat)) (d : EntityDofs) (m : PermMap) : Prop where
  table : PermTable top m
  perm : ∀ dim n, (dim, n) ∈ top → ∀ k < n, ∀ o p, permOn m dim k o = some p →
    p.Perm (List.range (dofsOn d dim k).length)

/-- The extrinsic orientations of a product: listed once, each standing for a permutation of the axes that exchanges only
axes of equal length. -/
def AxesOK (F : FiatPerms) : Prop := ∀ cells dims shape,
  ((F.axes cells dims shape).map Prod.fst).Nodup ∧
  ∀ ax ∈ F.axes cells dims shape, ax.2.Perm (List.range shape.length) ∧
    ∀ k < shape.length, shape.getD (ax.2.getD k 0) 0 = shape.getD k 0

end FInAT.Spec
