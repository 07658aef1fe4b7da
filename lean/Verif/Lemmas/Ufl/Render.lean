import Verif.Model.Ufl.Repr
import Mathlib.Data.Countable.Basic
import Mathlib.Logic.Encodable.Basic
import Mathlib.Logic.Equiv.List
import Mathlib.Tactic.DeriveCountable

/-!
# A text that determines its pieces exists
-/

namespace FInAT.Ufl

mutual
/-- A prefix code of cells. -/
def UCell.code : UCell → List Nat
  | .named n => [0, n.ctorIdx]
  | .tensor cs => 1 :: UCell.codes cs
/-- The code of a list of cells. -/
def UCell.codes : List UCell → List Nat
  | [] => [0]
  | c :: cs => 1 :: (c.code ++ UCell.codes cs)
end

theorem CellName.ctorIdx_inj : ∀ {a b : CellName}, a.ctorIdx = b.ctorIdx → a = b := by
  intro a b h
  cases a <;> cases b <;> first | rfl | (exact absurd h (by decide))

mutual
theorem UCell.code_inj : ∀ (a b : UCell) (s t : List Nat), a.code ++ s = b.code ++ t →
    a = b ∧ s = t
  | .named m, .named n, s, t, h => by
    simp only [UCell.code, List.cons_append, List.nil_append, List.cons.injEq, true_and] at h
    exact ⟨by rw [CellName.ctorIdx_inj h.1], h.2⟩
  | .tensor as, .tensor bs, s, t, h => by
    simp only [UCell.code, List.cons_append, List.cons.injEq, true_and] at h
    obtain ⟨h1, h2⟩ := UCell.codes_inj as bs s t h
    exact ⟨by rw [h1], h2⟩
  | .named _, .tensor _, _, _, h => by
    simp only [UCell.code, List.cons_append, List.cons.injEq] at h; omega
  | .tensor _, .named _, _, _, h => by
    simp only [UCell.code, List.cons_append, List.cons.injEq] at h; omega
theorem UCell.codes_inj : ∀ (as bs : List UCell) (s t : List Nat),
    UCell.codes as ++ s = UCell.codes bs ++ t → as = bs ∧ s = t
  | [], [], s, t, h => by simpa [UCell.codes] using h
  | a :: as, b :: bs, s, t, h => by
    simp only [UCell.codes, List.cons_append, List.append_assoc, List.cons.injEq, true_and] at h
    obtain ⟨h1, h2⟩ := UCell.code_inj a b _ _ h
    obtain ⟨h3, h4⟩ := UCell.codes_inj as bs s t h2
    exact ⟨by rw [h1, h3], h4⟩
  | [], _ :: _, _, _, h => by
    simp only [UCell.codes, List.cons_append, List.cons.injEq] at h; omega
  | _ :: _, [], _, _, h => by
    simp only [UCell.codes, List.cons_append, List.cons.injEq] at h; omega
end

instance : Countable UCell :=
  Function.Injective.countable (f := UCell.code)
    (fun a b h => (UCell.code_inj a b [] [] (by simpa using h)).1)

instance : Countable Char :=
  Function.Injective.countable (f := Char.toNat) (fun _ _ h => Char.toNat_inj.1 h)

instance : Countable String :=
  Function.Injective.countable (f := String.toList) (fun _ _ h => String.toList_inj.1 h)

deriving instance Countable for Order

instance : Countable Symmetry := inferInstanceAs (Countable (List (List Nat × List Nat)))

deriving instance Countable for Tok

/-- There is a way to write pieces down from which they can be read back. -/
theorem exists_render : ∃ render : List Tok → String, ∀ s t, render s = render t → s = t := by
  obtain ⟨f, hf⟩ := (inferInstance : Countable (List Tok)).exists_injective_nat'
  refine ⟨fun s => String.ofList (List.replicate (f s) 'a'), fun s t h => hf ?_⟩
  have := congrArg String.toList h
  simpa using congrArg List.length this

end FInAT.Ufl
