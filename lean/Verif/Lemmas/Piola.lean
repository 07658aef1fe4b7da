import Verif.Model.Piola
import Mathlib.LinearAlgebra.Matrix.Adjugate
import Mathlib.Tactic.Ring
import Mathlib.Tactic.FieldSimp
import Mathlib.Tactic.LinearCombination

/-!
# The recursive determinant is the Leibniz determinant
-/

namespace FInAT.Piola

open Finset

variable {K : Type}

/-- The leading `n × n` block as a Mathlib matrix. -/
def toMatrix (n : Nat) (A : NMat K) : Matrix (Fin n) (Fin n) K := Matrix.of fun i j => A i j

theorem without_eq (n j : Nat) (h : j < n + 1) :
    without (n + 1) j = (List.finRange n).map fun k => ((⟨j, h⟩ : Fin (n + 1)).succAbove k : Nat) := by
  have hsort : ∀ (l₁ l₂ : List Nat), l₁.Pairwise (· < ·) → l₂.Pairwise (· < ·) →
      (∀ x, x ∈ l₁ ↔ x ∈ l₂) → l₁ = l₂ := by
    intro l₁ l₂ h₁ h₂ h
    refine List.Perm.eq_of_pairwise (le := (· < ·)) ?_ h₁ h₂ ?_
    · intro a b _ _ h1 h2; omega
    · exact (List.perm_ext_iff_of_nodup (h₁.imp Nat.ne_of_lt) (h₂.imp Nat.ne_of_lt)).2 h
  apply hsort
  · exact List.Pairwise.filter _ List.pairwise_lt_range
  · rw [List.pairwise_map]
    refine (List.pairwise_lt_finRange n).imp ?_
    intro a b hab
    exact Fin.succAbove_lt_succAbove_iff.2 hab
  · intro x
    simp only [without, List.mem_filter, List.mem_range, List.mem_map, List.mem_finRange, true_and]
    constructor
    · rintro ⟨hx, hne⟩
      have hne' : (⟨x, hx⟩ : Fin (n + 1)) ≠ ⟨j, h⟩ := by
        intro he; simp only [Fin.mk.injEq] at he; subst he; simp at hne
      obtain ⟨k, hk⟩ := Fin.exists_succAbove_eq hne'
      exact ⟨k, by rw [hk]⟩
    · rintro ⟨k, rfl⟩
      refine ⟨Fin.is_lt _, ?_⟩
      have := Fin.succAbove_ne (⟨j, h⟩ : Fin (n + 1)) k
      simp only [Bool.not_eq_true', beq_eq_false_iff_ne, ne_eq]
      intro he
      exact this (Fin.ext he)

theorem tail_eq (n : Nat) : tail (n + 1) = without (n + 1) 0 := rfl

theorem toMatrix_select [Zero K] (n : Nat) (A : NMat K) (i j : Nat) (hi : i < n + 1) (hj : j < n + 1) :
    toMatrix n (select A (without (n + 1) i) (without (n + 1) j)) =
      (toMatrix (n + 1) A).submatrix (Fin.succAbove ⟨i, hi⟩) (Fin.succAbove ⟨j, hj⟩) := by
  funext a b
  simp only [toMatrix, Matrix.of_apply, Matrix.submatrix_apply, select]
  rw [without_eq n i hi, without_eq n j hj]
  simp

theorem determinant_eq [CommRing K] : ∀ (n : Nat) (A : NMat K), determinant n A = (toMatrix n A).det
  | 0, A => by simp [determinant]
  | 1, A => by simp [determinant, toMatrix]
  | 2, A => by simp [determinant, toMatrix, Matrix.det_fin_two]
  | n + 3, A => by
    rw [determinant, Matrix.det_succ_row_zero]
    have key : ∀ j (hj : j < n + 3),
        determinant (n + 2) (select A (tail (n + 3)) (without (n + 3) j)) =
          ((toMatrix (n + 3) A).submatrix Fin.succ (Fin.succAbove ⟨j, hj⟩)).det := by
      intro j hj
      rw [determinant_eq (n + 2), tail_eq, toMatrix_select (n + 2) A 0 j (by omega) hj]
      rfl
    have k0 := key 0 (by omega)
    rw [← tail_eq] at k0
    have hs : ∑ j : Fin (n + 3), (-1) ^ (j : ℕ) * toMatrix (n + 3) A 0 j *
          ((toMatrix (n + 3) A).submatrix Fin.succ j.succAbove).det =
        ∑ j ∈ range (n + 3), (-1) ^ j * A 0 j *
          determinant (n + 2) (select A (tail (n + 3)) (without (n + 3) j)) := by
      rw [Finset.sum_range]
      refine Finset.sum_congr rfl fun j _ => ?_
      rw [key j j.2]
      rfl
    rw [hs, Finset.range_eq_Ico, Finset.sum_eq_sum_Ico_succ_bot (by omega : 0 < n + 3)]
    rw [← tail_eq]
    simp

theorem adjugate_eq [CommRing K] (n : Nat) (A : NMat K) :
    toMatrix n (adjugate n A) = (toMatrix n A).adjugate := by
  cases n with
  | zero => funext i; exact i.elim0
  | succ n =>
    funext j i
    rw [Matrix.adjugate_fin_succ_eq_det_submatrix]
    simp only [toMatrix, Matrix.of_apply, adjugate, i.2, j.2, and_self, if_true, Nat.add_sub_cancel]
    rw [determinant_eq, toMatrix_select n A i j i.2 j.2]
    rfl

end FInAT.Piola
