import Verif.Model.Serendipity.Basis
import Verif.Spec.Serendipity
import Mathlib.Algebra.Order.Field.Basic
import Mathlib.Tactic.FieldSimp
import Mathlib.Tactic.FinCases
import Mathlib.Tactic.LinearCombination
import Mathlib.Tactic.Linarith
import Mathlib.Tactic.Positivity
import Mathlib.Tactic.Ring

/-! # The linear functions of the edges of a quadrilateral -/

set_option linter.unusedSectionVars false

namespace FInAT.Serendipity

open FInAT.Spec.Serendipity

variable {K : Type} [Field K] [LinearOrder K] [IsStrictOrderedRing K]

/-- Twice the area of the triangle cut off at a corner, with the sign of the orientation. -/
def corner (vs : Fin 4 → Pt K) : Fin 4 → K :=
  ![area (vs 2) (vs 0) (vs 1), area (vs 0) (vs 1) (vs 3), area (vs 3) (vs 2) (vs 0),
    area (vs 1) (vs 3) (vs 2)]

/-- A table of the values of the linear functions at the vertices. -/
def lamTable (a : Fin 4 → K) : Fin 4 → Fin 4 → K :=
  ![![0, 0, a 0, a 1], ![a 2, a 3, 0, 0], ![0, a 0, 0, a 2], ![a 1, 0, a 3, 0]]

theorem fin4 (e : Fin 4) : e = 0 ∨ e = 1 ∨ e = 2 ∨ e = 3 := by revert e; decide

theorem lam_zero (vs : Fin 4 → Pt K) (x : Pt K) : lam vs 0 x = area (vs 0) (vs 1) x := by
  have he : ends 0 = (0, 1) := rfl
  have hn : normal vs 0 = (-(tangent vs 0).2, (tangent vs 0).1) := rfl
  simp only [lam, area, xstar, hn, tangent, he]
  field_simp
  ring

theorem lam_one (vs : Fin 4 → Pt K) (x : Pt K) : lam vs 1 x = area (vs 3) (vs 2) x := by
  have he : ends 1 = (2, 3) := rfl
  have hn : normal vs 1 = ((tangent vs 1).2, -(tangent vs 1).1) := rfl
  simp only [lam, area, xstar, hn, tangent, he]
  field_simp
  ring

theorem lam_two (vs : Fin 4 → Pt K) (x : Pt K) : lam vs 2 x = area (vs 2) (vs 0) x := by
  have he : ends 2 = (0, 2) := rfl
  have hn : normal vs 2 = ((tangent vs 2).2, -(tangent vs 2).1) := rfl
  simp only [lam, area, xstar, hn, tangent, he]
  field_simp
  ring

theorem lam_three (vs : Fin 4 → Pt K) (x : Pt K) : lam vs 3 x = area (vs 1) (vs 3) x := by
  have he : ends 3 = (1, 3) := rfl
  have hn : normal vs 3 = (-(tangent vs 3).2, (tangent vs 3).1) := rfl
  simp only [lam, area, xstar, hn, tangent, he]
  field_simp
  ring

theorem corner_zero (vs : Fin 4 → Pt K) : corner vs 0 = area (vs 2) (vs 0) (vs 1) := rfl
theorem corner_one (vs : Fin 4 → Pt K) : corner vs 1 = area (vs 0) (vs 1) (vs 3) := rfl
theorem corner_two (vs : Fin 4 → Pt K) : corner vs 2 = area (vs 3) (vs 2) (vs 0) := rfl
theorem corner_three (vs : Fin 4 → Pt K) : corner vs 3 = area (vs 1) (vs 3) (vs 2) := rfl

theorem lam_vertex (vs : Fin 4 → Pt K) (e v : Fin 4) :
    lam vs e (vs v) = lamTable (corner vs) e v := by
  rcases fin4 e with rfl | rfl | rfl | rfl
  · rw [lam_zero]
    rcases fin4 v with rfl | rfl | rfl | rfl
    · change _ = (0 : K); simp only [area]; ring
    · change _ = (0 : K); simp only [area]; ring
    · change _ = corner vs 0; rw [corner_zero]; simp only [area]; ring
    · rfl
  · rw [lam_one]
    rcases fin4 v with rfl | rfl | rfl | rfl
    · rfl
    · change _ = corner vs 3; rw [corner_three]; simp only [area]; ring
    · change _ = (0 : K); simp only [area]; ring
    · change _ = (0 : K); simp only [area]; ring
  · rw [lam_two]
    rcases fin4 v with rfl | rfl | rfl | rfl
    · change _ = (0 : K); simp only [area]; ring
    · rfl
    · change _ = (0 : K); simp only [area]; ring
    · change _ = corner vs 2; rw [corner_two]; simp only [area]; ring
  · rw [lam_three]
    rcases fin4 v with rfl | rfl | rfl | rfl
    · change _ = corner vs 1; rw [corner_one]; simp only [area]; ring
    · change _ = (0 : K); simp only [area]; ring
    · rfl
    · change _ = (0 : K); simp only [area]; ring

theorem corner_sum (vs : Fin 4 → Pt K) : corner vs 0 + corner vs 3 = corner vs 1 + corner vs 2 := by
  rw [corner_zero, corner_one, corner_two, corner_three]
  simp only [area]; ring

/-- The orientation of a strictly convex quadrilateral. -/
def Oriented (vs : Fin 4 → Pt K) (σ : K) : Prop := ∀ v, 0 < σ * corner vs v

theorem StrictlyConvex.oriented {vs : Fin 4 → Pt K} (h : StrictlyConvex vs) :
    ∃ σ : K, Oriented vs σ := by
  rcases h with ⟨h1, h2, h3, h4⟩ | ⟨h1, h2, h3, h4⟩
  · refine ⟨1, fun v => ?_⟩
    rw [one_mul]
    rcases fin4 v with rfl | rfl | rfl | rfl
    exacts [h4, h1, h3, h2]
  · refine ⟨-1, fun v => ?_⟩
    rw [neg_one_mul, neg_pos]
    rcases fin4 v with rfl | rfl | rfl | rfl
    exacts [h4, h1, h3, h2]

/-- `lam` is affine. -/
theorem lam_comb (vs : Fin 4 → Pt K) (e : Fin 4) (a b c : Pt K) (s t : K) :
    lam vs e ((1 - s - t) * a.1 + s * b.1 + t * c.1, (1 - s - t) * a.2 + s * b.2 + t * c.2)
      = (1 - s - t) * lam vs e a + s * lam vs e b + t * lam vs e c := by
  simp only [lam]; ring

theorem lam_edgePt (vs : Fin 4 → Pt K) (e o : Fin 4) (s : K) :
    lam vs o (edgePt vs e s)
      = (1 - s) * lam vs o (vs (ends e).1) + s * lam vs o (vs (ends e).2) := by
  simp only [lam, edgePt]; ring

theorem edgePt_eq_between (vs : Fin 4 → Pt K) (e : Fin 4) (s : K) :
    edgePt vs e s = between (vs (edgeEnds e).1) (vs (edgeEnds e).2) s := by
  have : ends = edgeEnds := rfl
  simp only [edgePt, between, this]
  ext <;> simp only <;> ring

theorem edgePt_half (vs : Fin 4 → Pt K) (e : Fin 4) : edgePt vs e (1 / 2) = xstar vs e := by
  simp only [edgePt, xstar]
  ext <;> simp only <;> field_simp <;> ring

section

variable {vs : Fin 4 → Pt K} {σ : K} (h : Oriented vs σ)
include h

theorem Oriented.vertex_pos {e v : Fin 4} (hv : onEdge v e = false) :
    0 < σ * lam vs e (vs v) := by
  rw [lam_vertex]
  rcases fin4 e with rfl | rfl | rfl | rfl <;> rcases fin4 v with rfl | rfl | rfl | rfl <;>
    first
      | exact absurd hv (by decide)
      | exact h 0
      | exact h 1
      | exact h 2
      | exact h 3

omit h in
theorem lam_vertex_on (vs : Fin 4 → Pt K) {e v : Fin 4} (hv : onEdge v e = true) :
    lam vs e (vs v) = 0 := by
  rw [lam_vertex]
  rcases fin4 e with rfl | rfl | rfl | rfl <;> rcases fin4 v with rfl | rfl | rfl | rfl <;>
    first
      | exact absurd hv (by decide)
      | rfl

theorem Oriented.vertex_nonneg (e v : Fin 4) : 0 ≤ σ * lam vs e (vs v) := by
  cases hv : onEdge v e
  · exact (h.vertex_pos hv).le
  · rw [lam_vertex_on vs hv, mul_zero]

end

theorem lam_own_edge (vs : Fin 4 → Pt K) (e : Fin 4) (s : K) : lam vs e (edgePt vs e s) = 0 := by
  rw [lam_edgePt, lam_vertex_on vs (by revert e; decide), lam_vertex_on vs (by revert e; decide)]
  ring

section

variable {vs : Fin 4 → Pt K} {σ : K} (h : Oriented vs σ)
include h

theorem Oriented.edge_pos {e o : Fin 4} (ho : o ≠ e) {s : K} (h0 : 0 < s) (h1 : s < 1) :
    0 < σ * lam vs o (edgePt vs e s) := by
  rw [lam_edgePt]
  have n1 := h.vertex_nonneg o (ends e).1
  have n2 := h.vertex_nonneg o (ends e).2
  have : onEdge (ends e).1 o = false ∨ onEdge (ends e).2 o = false := by
    clear n1 n2
    revert e o; decide
  have e1 : σ * ((1 - s) * lam vs o (vs (ends e).1) + s * lam vs o (vs (ends e).2))
      = (1 - s) * (σ * lam vs o (vs (ends e).1)) + s * (σ * lam vs o (vs (ends e).2)) := by ring
  rw [e1]
  have hs : 0 < 1 - s := by linarith
  rcases this with hp | hp
  · have := h.vertex_pos hp
    have := mul_pos hs this
    have := mul_nonneg h0.le n2
    linarith
  · have := h.vertex_pos hp
    have := mul_pos h0 this
    have := mul_nonneg hs.le n1
    linarith

theorem Oriented.opposite_pos (e : Fin 4) {s : K} (h0 : 0 ≤ s) (h1 : s ≤ 1) :
    0 < σ * lam vs (opposite e) (edgePt vs e s) := by
  rw [lam_edgePt]
  have n1 := h.vertex_pos (e := opposite e) (v := (ends e).1) (by revert e; decide)
  have n2 := h.vertex_pos (e := opposite e) (v := (ends e).2) (by clear n1; revert e; decide)
  rw [show σ * ((1 - s) * lam vs (opposite e) (vs (ends e).1)
      + s * lam vs (opposite e) (vs (ends e).2)) = (1 - s) * (σ * lam vs (opposite e) (vs (ends e).1))
      + s * (σ * lam vs (opposite e) (vs (ends e).2)) by ring]
  rcases h0.lt_or_eq with h0 | rfl
  · have := mul_pos h0 n2
    have := mul_nonneg (by linarith : 0 ≤ 1 - s) n1.le
    linarith
  · linarith

end

theorem ne_zero_of_mul_pos {a b : K} (h : 0 < a * b) : b ≠ 0 := by
  rintro rfl; simp at h

end FInAT.Serendipity
