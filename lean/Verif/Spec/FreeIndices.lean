import Verif.Model.Gem

/-!
# Free indices of GEM expressions
-/

namespace FInAT

variable {K : Type}

mutual
/-- The index with number `n` is among `expression.free_indices`: it is used by an index operation or a delta and
not bound by a component tensor or a sum around it. -/
def Gem.Free (n : Nat) : Gem K → Prop
  | .literal _ _ => False
  | .zero _ => False
  | .indexed e ixs => e.Free n ∨ ∃ i, Ix.free i ∈ ixs ∧ i.id = n
  | .componentTensor e ixs => e.Free n ∧ n ∉ ixs.map Index.id
  | .product a b => a.Free n ∨ b.Free n
  | .delta i j => i.id = n ∨ j.id = n
  | .indexSum e ixs => e.Free n ∧ n ∉ ixs.map Index.id
  | .listTensor _ es => Gem.FreeL n es
  | .concatenate es => Gem.FreeL n es
/-- The index is free in one of the expressions. -/
def Gem.FreeL (n : Nat) : List (Gem K) → Prop
  | [] => False
  | e :: es => e.Free n ∨ Gem.FreeL n es
end

mutual
/-- The expression respects the shapes: GEM's constructors refuse to index with the wrong number of indices and
to multiply, sum or make tensors of anything but scalars. -/
def Gem.WellShaped : Gem K → Prop
  | .literal _ _ => True
  | .zero _ => True
  | .indexed e ixs => e.WellShaped ∧ ixs.length = e.shape.length
  | .componentTensor e _ => e.WellShaped ∧ e.shape = []
  | .product a b => a.WellShaped ∧ b.WellShaped ∧ a.shape = [] ∧ b.shape = []
  | .delta _ _ => True
  | .indexSum e _ => e.WellShaped ∧ e.shape = []
  | .listTensor _ es => Gem.WellShapedL es ∧ ∀ e ∈ es, e.shape = []
  | .concatenate es => Gem.WellShapedL es
/-- ... for every expression of a list. -/
def Gem.WellShapedL : List (Gem K) → Prop
  | [] => True
  | e :: es => e.WellShaped ∧ Gem.WellShapedL es
end

/-- The expression respects the shapes and all its free indices are among those with the property `S`. -/
def Gem.FreeIn (S : Nat → Prop) (e : Gem K) : Prop := e.WellShaped ∧ ∀ n, e.Free n → S n

/-- All expressions of a tabulation have their free indices among those with the property `S`. -/
def TabFreeIn (S : Nat → Prop) (T : Tab K) : Prop := ∀ p ∈ T, p.2.FreeIn S

/-- Number `n` belongs to one of the indices. -/
def AmongIx (l : List Index) (n : Nat) : Prop := n ∈ l.map Index.id

end FInAT
