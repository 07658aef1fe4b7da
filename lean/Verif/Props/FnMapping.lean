import Verif.Lemmas.FnMapping
import Verif.Props.Dofs

/-!
# C77: the mapping of an element is the mapping of all its basis functions
-/

namespace FInAT.Props

open FInAT Spec Elem

/-- **C77.** Any element all of whose parts have basis functions has the mapping `m` exactly when `m` is the mapping of
every one of its basis functions. -/
theorem C77_mapping (mu : Leaf → Nat → Mapping) (e : Elem) (m : Mapping) (hl : Leaves (LeafMapping mu) e)
    (hp : Populated e) :
    e.mapping = some m ↔ ∀ i, InRange i e.indexShape → HasMapping mu e i m :=
  ⟨hasMapping_of mu e m hl, mapping_of mu e m hl hp⟩

/-- **C77**: it is right also for elements with empty parts. -/
theorem C77_sound (mu : Leaf → Nat → Mapping) (e : Elem) (m : Mapping) (hl : Leaves (LeafMapping mu) e)
    (hm : e.mapping = some m) (i : List Nat) (hi : InRange i e.indexShape) : HasMapping mu e i m :=
  hasMapping_of mu e m hl hm i hi

/-- **C77**: no mapping is given (`None`) exactly when the basis functions have no mapping in common. -/
theorem C77_none (mu : Leaf → Nat → Mapping) (e : Elem) (hl : Leaves (LeafMapping mu) e) (hp : Populated e) :
    e.mapping = none ↔ ¬ ∃ m, ∀ i, InRange i e.indexShape → HasMapping mu e i m := by
  constructor
  · rintro h ⟨m, hm⟩
    rw [(C77_mapping mu e m hl hp).2 hm] at h
    cases h
  · intro h
    cases hm : e.mapping with
    | none => rfl
    | some m => exact absurd ⟨m, (C77_mapping mu e m hl hp).1 hm⟩ h

/-- **C77**: a basis function has at most one mapping. -/
theorem C77_unique (mu : Leaf → Nat → Mapping) (e : Elem) (i : List Nat) (m n : Mapping)
    (h : HasMapping mu e i m) (h' : HasMapping mu e i n) : m = n :=
  HasMapping.unique mu e i h h'

/-! ### Examples -/

namespace FnMappingExample

/-- A leaf with three functions of which the last is mapped differently. -/
def odd : Leaf := { cg1 with id := 77, fns := [0, 1, 2], mapping := none }

/-- The Raviart-Thomas leaf. -/
def rt : Leaf := { cg1 with id := 78, fns := [0, 1, 2], mapping := some .contravariantPiola, valueShape := [2] }

/-- FIAT's mappings. -/
def mu (l : Leaf) (i : Nat) : Mapping :=
  if l.id = 77 then (if i = 2 then .contravariantPiola else .affine)
  else if l.id = 78 then .contravariantPiola else .affine

theorem leaf_ok : ∀ l ∈ [cg1, dg0, odd, rt], LeafMapping mu l := by
  unfold LeafMapping
  decide

/-- Products of an H(div) function and an affine one, and a sum with an H(div) wrapper. -/
def good : Elem :=
  .enriched [.tensorProduct [.leaf rt, .leaf cg1], .hdiv (.tensorProduct [.leaf cg1, .leaf dg0])]

example : Leaves (LeafMapping mu) good ∧ Populated good ∧ good.mapping = some .contravariantPiola := by
  refine ⟨?_, ?_, ?_⟩
  · simp only [good, Leaves, LeavesL, and_true]
    exact ⟨⟨leaf_ok _ (by simp), leaf_ok _ (by simp)⟩, ⟨leaf_ok _ (by simp), leaf_ok _ (by simp)⟩⟩
  · simp [good, Populated, PopulatedL, rt, cg1, dg0]
  · decide

/-- With the odd leaf there is no common mapping. -/
example : ¬ ∃ m, ∀ i, InRange i (Elem.tensorProduct [.leaf odd, .leaf cg1]).indexShape →
    HasMapping mu (.tensorProduct [.leaf odd, .leaf cg1]) i m :=
  (C77_none mu (.tensorProduct [.leaf odd, .leaf cg1])
    (by simp only [Leaves, LeavesL, and_true]; exact ⟨leaf_ok _ (by simp), leaf_ok _ (by simp)⟩)
    (by simp [Populated, PopulatedL, odd, cg1])).1 (by decide)

end FnMappingExample

end FInAT.Props
