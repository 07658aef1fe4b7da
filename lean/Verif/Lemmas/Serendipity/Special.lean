import Verif.Lemmas.Serendipity.Regular
import Mathlib.LinearAlgebra.Lagrange
import Mathlib.Analysis.Real.Sqrt
import Mathlib.Tactic.NormNum

/-! # Parallelograms, and a quadrilateral on which degree four fails -/

set_option linter.unusedSectionVars false

namespace FInAT.Serendipity

open FInAT.Spec.Serendipity
open Polynomial

variable {K : Type} [Field K] [LinearOrder K] [IsStrictOrderedRing K]

theorem parallelogram_edge {vs : Fin 4 → Pt K} {σ : K} (h : Oriented vs σ) (hp : Parallelogram vs)
    (e : Fin 4) : ∃ c : K, c ≠ 0 ∧ ∀ s, across vs e s = c ∧ ratio vs e s = 2 * s - 1 := by
  obtain ⟨p1, p2⟩ := hp
  have c0 := ne_zero_of_mul_pos (h 0)
  rw [corner_zero] at c0
  simp only [area] at c0
  have x3 : (vs 3).1 = (vs 1).1 - (vs 0).1 + (vs 2).1 := by rw [p1]; ring
  have y3 : (vs 3).2 = (vs 1).2 - (vs 0).2 + (vs 2).2 := by rw [p2]; ring
  rcases fin4 e with rfl | rfl | rfl | rfl
  · refine ⟨-((vs 0).1 - (vs 2).1) * ((vs 1).2 - (vs 2).2)
      + ((vs 0).2 - (vs 2).2) * ((vs 1).1 - (vs 2).1), ?_, fun s => ⟨?_, ?_⟩⟩
    · intro h0; apply c0; linear_combination -h0
    · change area (vs 2) (vs 3) (between (vs 0) (vs 1) s) = _
      simp only [area, between, x3, y3]; ring
    · change (area (vs 0) (between (vs 0) (vs 1) s) (vs 2)
        - area (between (vs 0) (vs 1) s) (vs 1) (vs 3))
        / (area (vs 0) (between (vs 0) (vs 1) s) (vs 2)
        + area (between (vs 0) (vs 1) s) (vs 1) (vs 3)) = _
      simp only [area, between, x3, y3]
      rw [div_eq_iff]
      · ring
      · intro h0; apply c0; linear_combination h0
  · refine ⟨((vs 0).1 - (vs 2).1) * ((vs 1).2 - (vs 2).2)
      - ((vs 0).2 - (vs 2).2) * ((vs 1).1 - (vs 2).1), c0, fun s => ⟨?_, ?_⟩⟩
    · change area (vs 0) (vs 1) (between (vs 2) (vs 3) s) = _
      simp only [area, between, x3, y3]; ring
    · change (area (vs 2) (between (vs 2) (vs 3) s) (vs 0)
        - area (between (vs 2) (vs 3) s) (vs 3) (vs 1))
        / (area (vs 2) (between (vs 2) (vs 3) s) (vs 0)
        + area (between (vs 2) (vs 3) s) (vs 3) (vs 1)) = _
      simp only [area, between, x3, y3]
      rw [div_eq_iff]
      · ring
      · intro h0; apply c0; linear_combination -h0
  · refine ⟨((vs 0).1 - (vs 2).1) * ((vs 1).2 - (vs 2).2)
      - ((vs 0).2 - (vs 2).2) * ((vs 1).1 - (vs 2).1), c0, fun s => ⟨?_, ?_⟩⟩
    · change area (vs 1) (vs 3) (between (vs 0) (vs 2) s) = _
      simp only [area, between, x3, y3]; ring
    · change (area (vs 0) (between (vs 0) (vs 2) s) (vs 1)
        - area (between (vs 0) (vs 2) s) (vs 2) (vs 3))
        / (area (vs 0) (between (vs 0) (vs 2) s) (vs 1)
        + area (between (vs 0) (vs 2) s) (vs 2) (vs 3)) = _
      simp only [area, between, x3, y3]
      rw [div_eq_iff]
      · ring
      · intro h0; apply c0; linear_combination -h0
  · refine ⟨-((vs 0).1 - (vs 2).1) * ((vs 1).2 - (vs 2).2)
      + ((vs 0).2 - (vs 2).2) * ((vs 1).1 - (vs 2).1), ?_, fun s => ⟨?_, ?_⟩⟩
    · intro h0; apply c0; linear_combination -h0
    · change area (vs 0) (vs 2) (between (vs 1) (vs 3) s) = _
      simp only [area, between, x3, y3]; ring
    · change (area (vs 1) (between (vs 1) (vs 3) s) (vs 0)
        - area (between (vs 1) (vs 3) s) (vs 3) (vs 2))
        / (area (vs 1) (between (vs 1) (vs 3) s) (vs 0)
        + area (between (vs 1) (vs 3) s) (vs 3) (vs 2)) = _
      simp only [area, between, x3, y3]
      rw [div_eq_iff]
      · ring
      · intro h0; apply c0; linear_combination h0

theorem parallelogram_regular {vs : Fin 4 → Pt K} {σ : K} (h : Oriented vs σ)
    (hp : Parallelogram vs) {r : Nat} (hr : 2 ≤ r) : EdgeRegular vs r := by
  rintro e ⟨q, hq, hk⟩
  obtain ⟨c, hc, he⟩ := parallelogram_edge h hp e
  obtain ⟨m, rfl⟩ : ∃ m, r = m + 2 := ⟨r - 2, by omega⟩
  rw [Nat.add_sub_cancel] at hq
  simp only [Nat.add_sub_cancel] at hk
  have hl : (2 * X - 1 : K[X]).degree = 1 := by
    have : (2 * X - 1 : K[X]) = C 2 * X + C (-1) := by rw [C_neg, C_1]; rw [← sub_eq_add_neg]; rfl
    rw [this]
    exact degree_linear two_ne_zero
  have hd : ((2 * X - 1 : K[X]) ^ m).degree = m := by
    rw [degree_pow, hl]; simp
  have heq : q * C c = (2 * X - 1 : K[X]) ^ m := by
    refine Polynomial.eq_of_degrees_lt_of_eval_index_eq (s := (Finset.univ : Finset (Fin (m + 1))))
      (v := fun i : Fin (m + 1) => (((i.val + 1 : Nat) : K) / ((m + 2 : Nat) : K))) ?_ ?_ ?_ ?_
    · intro i _ j _ hij
      have hm : ((m + 2 : Nat) : K) ≠ 0 := by exact_mod_cast (by omega : m + 2 ≠ 0)
      simp only at hij
      rw [div_left_inj' hm] at hij
      have : i.val + 1 = j.val + 1 := by exact_mod_cast hij
      exact Fin.ext (by omega)
    · rw [Finset.card_univ, Fintype.card_fin, degree_mul_C hc]
      exact hq.trans (by exact_mod_cast Nat.lt_succ_self m)
    · rw [Finset.card_univ, Fintype.card_fin, hd]
      exact_mod_cast Nat.lt_succ_self m
    · intro i _
      have := hk (i.val + 1) (by omega) (by omega)
      rw [(he _).1, (he _).2] at this
      rw [eval_mul, eval_C, this]
      simp
  rw [← heq, degree_mul_C hc] at hd
  rw [hd] at hq
  exact lt_irrefl _ hq

/-! ## Degree four -/

/-- The larger root of `411 t² - 6288 t + 6032`, divided by `9`. -/
noncomputable def badWidth : ℝ := (3144 + Real.sqrt 7405584) / 411 / 9

/-- A strictly convex quadrilateral. -/
noncomputable def badQuad : Fin 4 → Pt ℝ := ![(0, 0), (1, 0), (0, 9), (badWidth, 1)]

theorem badWidth_eq : 411 * (9 * badWidth) ^ 2 - 6288 * (9 * badWidth) + 6032 = 0 := by
  have h : Real.sqrt 7405584 ^ 2 = 7405584 := Real.sq_sqrt (by norm_num)
  unfold badWidth
  linear_combination (1 / 411) * h

theorem badWidth_gt : 14 < 9 * badWidth := by
  have h : (2700 : ℝ) < Real.sqrt 7405584 := by
    rw [Real.lt_sqrt (by norm_num)]; norm_num
  unfold badWidth
  linarith

theorem bad_convex : StrictlyConvex badQuad := by
  have h := badWidth_gt
  left
  refine ⟨?_, ?_, ?_, ?_⟩
  · change 0 < area ((0, 0) : ℝ × ℝ) (1, 0) (badWidth, 1)
    simp only [area]; linarith
  · change 0 < area ((1, 0) : ℝ × ℝ) (badWidth, 1) (0, 9)
    simp only [area]; linarith
  · change 0 < area ((badWidth, 1) : ℝ × ℝ) (0, 9) (0, 0)
    simp only [area]; linarith
  · change 0 < area ((0, 9) : ℝ × ℝ) (0, 0) (1, 0)
    simp only [area]; linarith

theorem bad_not_regular : ¬ EdgeRegular badQuad 4 := by
  intro hreg
  apply hreg 0
  have hw := badWidth_gt
  have heq := badWidth_eq
  generalize ht : 9 * badWidth = t at hw heq
  have ha : ∀ s, across badQuad 0 s = 8 * s - t := by
    intro s
    change area ((0, 9) : ℝ × ℝ) (badWidth, 1) (between (0, 0) (1, 0) s) = _
    simp only [area, between]
    linear_combination -ht
  have hr : ∀ s, ratio badQuad 0 s = (10 * s - 1) / (8 * s + 1) := by
    intro s
    change (area ((0, 0) : ℝ × ℝ) (between (0, 0) (1, 0) s) (0, 9)
      - area (between ((0, 0) : ℝ × ℝ) (1, 0) s) (1, 0) (badWidth, 1))
      / (area ((0, 0) : ℝ × ℝ) (between (0, 0) (1, 0) s) (0, 9)
      + area (between ((0, 0) : ℝ × ℝ) (1, 0) s) (1, 0) (badWidth, 1)) = _
    simp only [area, between]
    congr 1 <;> ring
  have n2 : t - 2 ≠ 0 := by linarith
  have n4 : t - 4 ≠ 0 := by linarith
  have n6 : t - 6 ≠ 0 := by linarith
  refine ⟨C (4 * (1 / (4 * (t - 2)) - 16 / (25 * (t - 4)))) * X
    + C (-1 / (4 * (t - 2)) - (1 / (4 * (t - 2)) - 16 / (25 * (t - 4)))), ?_, ?_⟩
  · refine lt_of_le_of_lt degree_linear_le ?_
    exact_mod_cast (by norm_num : (1 : Nat) < 4 - 2)
  · intro k h0 h4
    obtain rfl | rfl | rfl : k = 1 ∨ k = 2 ∨ k = 3 := by omega
    all_goals
      rw [ha, hr]
      simp only [eval_add, eval_mul, eval_C, eval_X, Nat.cast_one, Nat.cast_ofNat]
      norm_num
      field_simp
    · ring
    · ring
    · linear_combination 8 * heq

end FInAT.Serendipity
