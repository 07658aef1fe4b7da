import Verif.Props.DeRham9

/-!
# C110: only constants have gradient zero
-/

namespace FInAT.Props

open FInAT Spec

section
variable {K : Type} [CommRing K] {φ : LeafVals K} {a b : Elem}

/-- On the square: a function of `a ⊗ a` with gradient zero is its value at the origin times the function one. -/
theorem C110_gradient_free (h : IntervalComplex φ a b) (hk : OnlyConstants φ a) (g : Jet K)
    (hg : InSpace φ (.tensorProduct [a, a]) square [] g)
    (h0 : ∀ α x z, α.length = 2 → x.length = 2 → InRange z [2] → gradJet g α x z = 0) (α : List Nat) (x : List K)
    (hα : α.length = 2) (hx : x.length = 2) : g α x [] = if α = [0, 0] then g [0, 0] [0, 0] [] else 0 := by
  have r0 : InRange [0] [2] := .cons (by decide) .nil
  have r1 : InRange [1] [2] := .cons (by decide) .nil
  obtain ⟨r, s, rfl⟩ := two_of hα
  obtain ⟨x, y, rfl⟩ := two_of hx
  have e1 : g [r, s] [x, y] [] = g [0, s] [0, y] [] * oneJet [r] [x] [] := by
    refine hk.2 _ (slice_first h.cellA h.cellA h.scalarA h.scalarA g hg s y) (fun α x hα hx => ?_) [r] [x] rfl rfl
    obtain ⟨r, rfl⟩ := one_of hα
    obtain ⟨x, rfl⟩ := one_of hx
    exact h0 [r, s] [x, y] [0] rfl rfl r0
  have e2 : g [0, s] [0, y] [] = g [0, 0] [0, 0] [] * oneJet [s] [y] [] := by
    refine hk.2 _ (slice_second h.cellA h.cellA h.scalarA h.scalarA g hg 0 0) (fun α y hα hy => ?_) [s] [y] rfl rfl
    obtain ⟨s, rfl⟩ := one_of hα
    obtain ⟨y, rfl⟩ := one_of hy
    exact h0 [0, s] [0, y] [1] rfl rfl r1
  rw [e1, e2]
  unfold oneJet
  by_cases hr : r = 0 <;> by_cases hs : s = 0 <;> simp [hr, hs]

end

namespace DeRhamCases

/-- The function one on the square satisfies the hypotheses. -/
example : InSpace vals4 (.tensorProduct [.leaf cg1, .leaf cg1]) square [] (prodJet 1 0 oneJet oneJet) ∧
    ∀ α x z, α.length = 2 → x.length = 2 → InRange z [2] → gradJet (prodJet 1 0 oneJet oneJet : Jet ℚ) α x z = 0 := by
  refine ⟨inSpace_prod cg_dg4.cellA cg_dg4.cellA cg_dg4.scalarA cg_dg4.scalarA cg_constants.1 cg_constants.1,
    fun α x z hα hx hz => ?_⟩
  obtain ⟨r, s, rfl⟩ := two_of hα
  obtain ⟨x, y, rfl⟩ := two_of hx
  rcases range2 hz with rfl | rfl
  · show (if [r + 1] = [0] then (1 : ℚ) else 0) * (if [s] = [0] then 1 else 0) = 0
    simp
  · show (if [r] = [0] then (1 : ℚ) else 0) * (if [s + 1] = [0] then 1 else 0) = 0
    simp

example := C110_gradient_free cg_dg4 cg_constants

end DeRhamCases
end FInAT.Props
