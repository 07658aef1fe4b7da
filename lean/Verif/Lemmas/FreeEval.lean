import Verif.Spec.FreeIndices
import Verif.Lemmas.Run

/-!
# The value of an expression depends on its free indices only
-/

namespace FInAT

variable {K : Type} [CommRing K]

theorem bindIx_congr {S : Nat → Prop} : ∀ {ixs : List Index} {v : List Nat} {ρ ρ' : Nat → Nat},
    v.length = ixs.length → (∀ n, S n → n ∉ ixs.map Index.id → ρ n = ρ' n) → ∀ n, S n →
      bindIx ρ ixs v n = bindIx ρ' ixs v n
  | [], [], ρ, ρ', _, h, n, hn => h n hn (by simp)
  | [], _ :: _, _, _, hl, _, _, _ => by simp at hl
  | _ :: _, [], _, _, hl, _, _, _ => by simp at hl
  | i :: ixs, k :: v, ρ, ρ', hl, h, n, hn => by
    unfold bindIx
    refine bindIx_congr (S := S) (by simpa using hl) (fun m hm hx => ?_) n hn
    by_cases hmi : m = i.id
    · simp [Function.update, hmi]
    · simpa [Function.update, hmi] using h m hm (by simp [hmi] at hx ⊢; exact hx)

theorem length_unravel : ∀ (s : List Nat) (k : Nat), (unravel s k).length = s.length
  | [], _ => rfl
  | _ :: s, k => by simp [unravel, length_unravel s]

theorem length_of_ndindex {s v : List Nat} (h : v ∈ ndindex s) : v.length = s.length :=
  List.Forall₂.length_eq (mem_ndindex.1 h)

mutual
theorem eval_congr_free : ∀ (e : Gem K) (ρ ρ' : Nat → Nat) (v : List Nat), e.WellShaped → v.length = e.shape.length →
    (∀ n, e.Free n → ρ n = ρ' n) → e.eval ρ v = e.eval ρ' v
  | .literal _ _, ρ, ρ', v, _, _, _ => by simp only [Gem.eval]
  | .zero _, ρ, ρ', v, _, _, _ => by simp only [Gem.eval]
  | .indexed e ixs, ρ, ρ', v, hw, _, h => by
    simp only [Gem.eval]
    have hi : ixs.map (Ix.val ρ) = ixs.map (Ix.val ρ') := by
      apply List.map_congr_left
      intro i hi
      cases i with
      | fixed k => rfl
      | free j => exact h j.id (by rw [Gem.Free]; exact .inr ⟨j, hi, rfl⟩)
    rw [hi]
    rw [Gem.WellShaped] at hw
    exact eval_congr_free e ρ ρ' _ hw.1 (by simpa using hw.2) fun n hn => h n (by rw [Gem.Free]; exact .inl hn)
  | .componentTensor e ixs, ρ, ρ', v, hw, hl, h => by
    simp only [Gem.eval]
    rw [Gem.WellShaped] at hw
    refine eval_congr_free e _ _ _ hw.1 (by simp [hw.2]) (bindIx_congr ?_ fun n hn hx => h n ?_)
    · simpa [Gem.shape] using hl
    · rw [Gem.Free]; exact ⟨hn, hx⟩
  | .product a b, ρ, ρ', v, hw, _, h => by
    simp only [Gem.eval]
    rw [Gem.WellShaped] at hw
    rw [eval_congr_free a ρ ρ' [] hw.1 (by simp [hw.2.2.1]) fun n hn => h n (by rw [Gem.Free]; exact .inl hn),
      eval_congr_free b ρ ρ' [] hw.2.1 (by simp [hw.2.2.2]) fun n hn => h n (by rw [Gem.Free]; exact .inr hn)]
  | .delta i j, ρ, ρ', v, _, _, h => by
    simp only [Gem.eval]
    rw [h i.id (by rw [Gem.Free]; exact .inl rfl), h j.id (by rw [Gem.Free]; exact .inr rfl)]
  | .indexSum e ixs, ρ, ρ', v, hw, _, h => by
    simp only [Gem.eval]
    rw [Gem.WellShaped] at hw
    congr 1
    apply List.map_congr_left
    intro w hx
    refine eval_congr_free e _ _ _ hw.1 (by simp [hw.2]) (bindIx_congr ?_ fun n hn hx => h n ?_)
    · simpa using length_of_ndindex hx
    · rw [Gem.Free]; exact ⟨hn, hx⟩
  | .listTensor s es, ρ, ρ', v, hw, _, h => by
    simp only [Gem.eval]
    rw [Gem.WellShaped] at hw
    exact evalNth_congr_free es ρ ρ' _ hw.1 hw.2 fun n hn => h n (by rw [Gem.Free]; exact hn)
  | .concatenate es, ρ, ρ', v, hw, _, h => by
    simp only [Gem.eval]
    rw [Gem.WellShaped] at hw
    exact evalFlat_congr_free es ρ ρ' _ hw fun n hn => h n (by rw [Gem.Free]; exact hn)
theorem evalNth_congr_free : ∀ (es : List (Gem K)) (ρ ρ' : Nat → Nat) (k : Nat), Gem.WellShapedL es →
    (∀ e ∈ es, e.shape = []) → (∀ n, Gem.FreeL n es → ρ n = ρ' n) → Gem.evalNth ρ es k = Gem.evalNth ρ' es k
  | [], _, _, _, _, _, _ => by simp only [Gem.evalNth]
  | e :: es, ρ, ρ', 0, hw, hs, h => by
    simp only [Gem.evalNth]
    rw [Gem.WellShapedL] at hw
    exact eval_congr_free e ρ ρ' _ hw.1 (by simp [hs e (by simp)]) fun n hn => h n (by rw [Gem.FreeL]; exact .inl hn)
  | e :: es, ρ, ρ', k + 1, hw, hs, h => by
    simp only [Gem.evalNth]
    rw [Gem.WellShapedL] at hw
    exact evalNth_congr_free es ρ ρ' k hw.2 (fun e he => hs e (by simp [he])) fun n hn =>
      h n (by rw [Gem.FreeL]; exact .inr hn)
theorem evalFlat_congr_free : ∀ (es : List (Gem K)) (ρ ρ' : Nat → Nat) (k : Nat), Gem.WellShapedL es →
    (∀ n, Gem.FreeL n es → ρ n = ρ' n) → Gem.evalFlat ρ es k = Gem.evalFlat ρ' es k
  | [], _, _, _, _, _ => by simp only [Gem.evalFlat]
  | e :: es, ρ, ρ', k, hw, h => by
    simp only [Gem.evalFlat]
    rw [Gem.WellShapedL] at hw
    rw [eval_congr_free e ρ ρ' _ hw.1 (length_unravel _ _) fun n hn => h n (by rw [Gem.FreeL]; exact .inl hn),
      evalFlat_congr_free es ρ ρ' _ hw.2 fun n hn => h n (by rw [Gem.FreeL]; exact .inr hn)]
end

end FInAT
