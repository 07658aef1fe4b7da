import Verif.Model.Cell

/-!
# Specification vocabulary for dof layouts (independent of the model's constructions)
-/

namespace FInAT.Spec

open FInAT

/-- All dof numbers mentioned in a dictionary, with multiplicity. -/
def allDofs (d : EntityDofs) : List Nat := d.flatMap fun p => p.2.flatMap fun q => q.2

/-- The dictionary mentions every number `0, ..., n-1` exactly once and no other number. -/
def Partition (d : EntityDofs) (n : Nat) : Prop := (allDofs d).Perm (List.range n)

instance (d : EntityDofs) (n : Nat) : Decidable (Partition d n) := by
  unfold Partition; infer_instance

/-- The keys of the dictionary are exactly the entities of the cell topology `top`
(a list of dimensions with the number of entities of that dimension). -/
def Covers (d : EntityDofs) (top : List (Dim × Nat)) : Prop :=
  (d.map Prod.fst).Perm (top.map Prod.fst) ∧
  ∀ p ∈ top, ∃ ents, (p.1, ents) ∈ d ∧ (ents.map Prod.fst).Perm (List.range p.2)

/-- Entity `(dim, ent)` has exactly the dof list `l`. -/
def HasDofs (d : EntityDofs) (dim : Dim) (ent : Nat) (l : List Nat) : Prop :=
  ∃ ents, d.get? dim = some ents ∧ ents.get? ent = some l

end FInAT.Spec

namespace FInAT.Spec

open FInAT

/-- The dof list of entity `(dim, ent)`; the empty list when the dictionary has no such entity
(every use comes with `Covers`, which says that the entity is there). -/
def dofsOn (d : EntityDofs) (dim : Dim) (ent : Nat) : List Nat :=
  ((d.get? dim).bind fun ents => ents.get? ent).getD []

end FInAT.Spec
