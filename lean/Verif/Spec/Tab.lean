import Verif.Model.Gem

/-!
# What a table is
-/

namespace FInAT.Spec

open FInAT

variable {K : Type} [CommRing K]

/-- The multi-index `v` is in range for the shape `s`. -/
abbrev InRange (v s : List Nat) : Prop := List.Forall₂ (fun i n => i < n) v s

/-- `T` is a complete table: its keys are exactly the derivatives in `sd` variables of order at most
`order`, each once; every entry has shape `ishape ++ vshape` (basis index, value index) and, whenever
the point indices have admissible values `ρ`, its entry `(i, z)` is `F α ρ i z`. -/
structure IsTable (V : (Nat → Nat) → Prop) (T : Tab K) (sd order : Nat) (ishape vshape : List Nat)
    (F : List Nat → (Nat → Nat) → List Nat → List Nat → K) : Prop where
  once : T.keys.Nodup
  keys : ∀ α, α ∈ T.keys ↔ α.length = sd ∧ α.sum ≤ order
  shape : ∀ α t, T.get? α = some t → t.shape = ishape ++ vshape
  value : ∀ α t, T.get? α = some t → ∀ ρ i z, V ρ → InRange i ishape → InRange z vshape →
    t.eval ρ (i ++ z) = F α ρ i z

/-- The construction `x`, started after `n` indices have been created, succeeds with a result
satisfying `P`. -/
def Yields {α : Type} (x : M α) (n : Nat) (P : α → Prop) : Prop := ∃ a n', x n = .ok (a, n') ∧ P a

end FInAT.Spec
