import Verif.Lemmas.Serendipity.Geometry

/-! # The function `R` of the element of degree one -/

set_option linter.unusedSectionVars false

namespace FInAT.Serendipity

open FInAT.Spec.Serendipity

variable {K : Type} [Field K] [LinearOrder K] [IsStrictOrderedRing K]

theorem map_finRange4 {α : Type} (f : Fin 4 → α) : (List.finRange 4).map f = [f 0, f 1, f 2, f 3] :=
  rfl

theorem xi_zero (vs : Fin 4 → Pt K) (x : Pt K) : xi vs 0 x = lam vs 2 x * lam vs 3 x * (1 - rV vs x)
    / lam vs 2 (xstar vs 0) / lam vs 3 (xstar vs 0) / 2 := by
  change lam vs 2 x * lam vs 3 x * (1 + (-1) ^ 1 * rV vs x)
    / lam vs 2 (xstar vs 0) / lam vs 3 (xstar vs 0) / 2 = _
  ring

theorem xi_one (vs : Fin 4 → Pt K) (x : Pt K) : xi vs 1 x = lam vs 2 x * lam vs 3 x * (1 + rV vs x)
    / lam vs 2 (xstar vs 1) / lam vs 3 (xstar vs 1) / 2 := by
  change lam vs 2 x * lam vs 3 x * (1 + (-1) ^ 2 * rV vs x)
    / lam vs 2 (xstar vs 1) / lam vs 3 (xstar vs 1) / 2 = _
  ring

theorem xi_two (vs : Fin 4 → Pt K) (x : Pt K) : xi vs 2 x = lam vs 0 x * lam vs 1 x * (1 - rH vs x)
    / lam vs 0 (xstar vs 2) / lam vs 1 (xstar vs 2) / 2 := by
  change lam vs 0 x * lam vs 1 x * (1 + (-1) ^ 3 * rH vs x)
    / lam vs 0 (xstar vs 2) / lam vs 1 (xstar vs 2) / 2 = _
  ring

theorem xi_three (vs : Fin 4 → Pt K) (x : Pt K) :
    xi vs 3 x = lam vs 0 x * lam vs 1 x * (1 + rH vs x)
    / lam vs 0 (xstar vs 3) / lam vs 1 (xstar vs 3) / 2 := by
  change lam vs 0 x * lam vs 1 x * (1 + (-1) ^ 4 * rH vs x)
    / lam vs 0 (xstar vs 3) / lam vs 1 (xstar vs 3) / 2 = _
  ring

theorem bigR_eq (vs : Fin 4 → Pt K) (x : Pt K) : bigR vs x = rSum vs x
    - (rSum vs (xstar vs 0) * xi vs 0 x + rSum vs (xstar vs 1) * xi vs 1 x
      + rSum vs (xstar vs 2) * xi vs 2 x + rSum vs (xstar vs 3) * xi vs 3 x) := by
  simp only [bigR, map_finRange4, List.sum_cons, List.sum_nil]
  ring

/-- The values of `R` at the vertices. -/
def rSign : Fin 4 → K := ![1, -1, -1, 1]

section

variable (vs : Fin 4 → Pt K) (s : K)

theorem on_edge0 : lam vs 0 (edgePt vs 0 s) = 0
    ∧ lam vs 1 (edgePt vs 0 s) = (1 - s) * corner vs 2 + s * corner vs 3
    ∧ lam vs 2 (edgePt vs 0 s) = s * corner vs 0
    ∧ lam vs 3 (edgePt vs 0 s) = (1 - s) * corner vs 1 := by
  refine ⟨lam_own_edge vs 0 s, ?_, ?_, ?_⟩ <;> rw [lam_edgePt, lam_vertex, lam_vertex]
  · rfl
  · change (1 - s) * 0 + _ = _; rw [mul_zero, zero_add]; rfl
  · change _ + s * 0 = _; rw [mul_zero, add_zero]; rfl

theorem on_edge1 : lam vs 1 (edgePt vs 1 s) = 0
    ∧ lam vs 0 (edgePt vs 1 s) = (1 - s) * corner vs 0 + s * corner vs 1
    ∧ lam vs 2 (edgePt vs 1 s) = s * corner vs 2
    ∧ lam vs 3 (edgePt vs 1 s) = (1 - s) * corner vs 3 := by
  refine ⟨lam_own_edge vs 1 s, ?_, ?_, ?_⟩ <;> rw [lam_edgePt, lam_vertex, lam_vertex]
  · rfl
  · change (1 - s) * 0 + _ = _; rw [mul_zero, zero_add]; rfl
  · change _ + s * 0 = _; rw [mul_zero, add_zero]; rfl

theorem on_edge2 : lam vs 2 (edgePt vs 2 s) = 0
    ∧ lam vs 3 (edgePt vs 2 s) = (1 - s) * corner vs 1 + s * corner vs 3
    ∧ lam vs 0 (edgePt vs 2 s) = s * corner vs 0
    ∧ lam vs 1 (edgePt vs 2 s) = (1 - s) * corner vs 2 := by
  refine ⟨lam_own_edge vs 2 s, ?_, ?_, ?_⟩ <;> rw [lam_edgePt, lam_vertex, lam_vertex]
  · rfl
  · change (1 - s) * 0 + _ = _; rw [mul_zero, zero_add]; rfl
  · change _ + s * 0 = _; rw [mul_zero, add_zero]; rfl

theorem on_edge3 : lam vs 3 (edgePt vs 3 s) = 0
    ∧ lam vs 2 (edgePt vs 3 s) = (1 - s) * corner vs 0 + s * corner vs 2
    ∧ lam vs 0 (edgePt vs 3 s) = s * corner vs 1
    ∧ lam vs 1 (edgePt vs 3 s) = (1 - s) * corner vs 3 := by
  refine ⟨lam_own_edge vs 3 s, ?_, ?_, ?_⟩ <;> rw [lam_edgePt, lam_vertex, lam_vertex]
  · rfl
  · change (1 - s) * 0 + _ = _; rw [mul_zero, zero_add]; rfl
  · change _ + s * 0 = _; rw [mul_zero, add_zero]; rfl

theorem rSum_eq (x : Pt K) : rSum vs x =
    lam vs 1 x * lam vs 3 x / corner vs 2 / corner vs 1
    - lam vs 0 x * lam vs 3 x / corner vs 0 / corner vs 3
    + lam vs 0 x * lam vs 2 x / corner vs 1 / corner vs 2
    - lam vs 1 x * lam vs 2 x / corner vs 3 / corner vs 0 := by
  simp only [rSum, lam_vertex]; rfl

end

variable {vs : Fin 4 → Pt K} {σ : K}

/-- Along an edge `R` is linear. -/
theorem Oriented.bigR_edge (h : Oriented vs σ) (e : Fin 4) {s : K} (h0 : 0 ≤ s) (h1 : s ≤ 1) :
    bigR vs (edgePt vs e s) = (1 - s) * rSign (ends e).1 + s * rSign (ends e).2 := by
  have c0 := ne_zero_of_mul_pos (h 0)
  have c1 := ne_zero_of_mul_pos (h 1)
  have c2 := ne_zero_of_mul_pos (h 2)
  have c3 := ne_zero_of_mul_pos (h 3)
  have ho := ne_zero_of_mul_pos (h.opposite_pos e h0 h1)
  have hh := ne_zero_of_mul_pos (h.opposite_pos e (s := 1 / 2) (by linarith) (by linarith))
  rcases fin4 e with rfl | rfl | rfl | rfl
  · change lam vs 1 _ ≠ 0 at ho hh
    obtain ⟨l0, l1, l2, l3⟩ := on_edge0 vs s
    obtain ⟨k0, k1, k2, k3⟩ := on_edge0 vs (1 / 2)
    have hV : rV vs (edgePt vs 0 s) = -1 := by
      rw [rV, l0, zero_sub, zero_add, neg_div, div_self ho]
    change _ = (1 - s) * 1 + s * -1
    rw [bigR_eq, xi_zero, xi_one, xi_two, xi_three, hV, rSum_eq, rSum_eq, ← edgePt_half vs 0,
      k0, k2, k3, l0, l2, l3]
    rw [l1] at ho ⊢
    rw [k1] at hh ⊢
    field_simp
    ring
  · change lam vs 0 _ ≠ 0 at ho hh
    obtain ⟨l0, l1, l2, l3⟩ := on_edge1 vs s
    obtain ⟨k0, k1, k2, k3⟩ := on_edge1 vs (1 / 2)
    have hV : rV vs (edgePt vs 1 s) = 1 := by
      rw [rV, l0, sub_zero, add_zero, div_self ho]
    change _ = (1 - s) * -1 + s * 1
    rw [bigR_eq, xi_zero, xi_one, xi_two, xi_three, hV, rSum_eq, rSum_eq vs (xstar vs 1),
      ← edgePt_half vs 1, k0, k2, k3, l0, l2, l3]
    rw [l1] at ho ⊢
    rw [k1] at hh ⊢
    field_simp
    ring
  · change lam vs 3 _ ≠ 0 at ho hh
    obtain ⟨l0, l1, l2, l3⟩ := on_edge2 vs s
    obtain ⟨k0, k1, k2, k3⟩ := on_edge2 vs (1 / 2)
    have hV : rH vs (edgePt vs 2 s) = -1 := by
      rw [rH, l0, zero_sub, zero_add, neg_div, div_self ho]
    change _ = (1 - s) * 1 + s * -1
    rw [bigR_eq, xi_zero, xi_one, xi_two, xi_three, hV, rSum_eq, rSum_eq vs (xstar vs 2),
      ← edgePt_half vs 2, k0, k2, k3, l0, l2, l3]
    rw [l1] at ho ⊢
    rw [k1] at hh ⊢
    field_simp
    ring
  · change lam vs 2 _ ≠ 0 at ho hh
    obtain ⟨l0, l1, l2, l3⟩ := on_edge3 vs s
    obtain ⟨k0, k1, k2, k3⟩ := on_edge3 vs (1 / 2)
    have hV : rH vs (edgePt vs 3 s) = 1 := by
      rw [rH, l0, sub_zero, add_zero, div_self ho]
    change _ = (1 - s) * -1 + s * 1
    rw [bigR_eq, xi_zero, xi_one, xi_two, xi_three, hV, rSum_eq, rSum_eq vs (xstar vs 3),
      ← edgePt_half vs 3, k0, k2, k3, l0, l2, l3]
    rw [l1] at ho ⊢
    rw [k1] at hh ⊢
    field_simp
    ring

theorem edgePt_start (vs : Fin 4 → Pt K) (e : Fin 4) : edgePt vs e 0 = vs (ends e).1 := by
  simp only [edgePt]; ext <;> simp

theorem edgePt_end (vs : Fin 4 → Pt K) (e : Fin 4) : edgePt vs e 1 = vs (ends e).2 := by
  simp only [edgePt]; ext <;> simp

theorem Oriented.bigR_vertex (h : Oriented vs σ) (v : Fin 4) : bigR vs (vs v) = rSign v := by
  have k0 := h.bigR_edge 0 (s := 0) le_rfl zero_le_one
  have k1 := h.bigR_edge 0 (s := 1) zero_le_one le_rfl
  have k2 := h.bigR_edge 1 (s := 0) le_rfl zero_le_one
  have k3 := h.bigR_edge 1 (s := 1) zero_le_one le_rfl
  rw [edgePt_start, sub_zero, one_mul, zero_mul, add_zero] at k0 k2
  rw [edgePt_end, sub_self, one_mul, zero_mul, zero_add] at k1 k3
  rcases fin4 v with rfl | rfl | rfl | rfl
  exacts [k0, k1, k2, k3]

theorem lam12_eq (vs : Fin 4 → Pt K) (x : Pt K) : lam12 vs x = area (vs 1) (vs 2) x := by
  simp only [lam12, area]; ring

theorem lam03_eq (vs : Fin 4 → Pt K) (x : Pt K) : lam03 vs x = area (vs 0) (vs 3) x := by
  simp only [lam03, area]; ring

theorem lam12_vertices (vs : Fin 4 → Pt K) : lam12 vs (vs 0) = corner vs 0 ∧
    lam12 vs (vs 3) = -corner vs 3 ∧ lam03 vs (vs 1) = -corner vs 1 ∧
    lam03 vs (vs 2) = corner vs 2 := by
  rw [lam12_eq, lam12_eq, lam03_eq, lam03_eq, corner_zero, corner_one, corner_two, corner_three]
  simp only [area]
  refine ⟨?_, ?_, ?_, ?_⟩ <;> ring

/-- The basis functions in terms of `R` and the areas at the corners. -/
theorem Oriented.phi1_eq (h : Oriented vs σ) (x : Pt K) :
    phi1 vs 0 x = (lam12 vs x + corner vs 3 * (1 + bigR vs x) / 2) / (corner vs 0 + corner vs 3) ∧
    phi1 vs 1 x = (corner vs 2 * (1 - bigR vs x) / 2 - lam03 vs x) / (corner vs 0 + corner vs 3) ∧
    phi1 vs 2 x = (lam03 vs x + corner vs 1 * (1 - bigR vs x) / 2) / (corner vs 0 + corner vs 3) ∧
    phi1 vs 3 x = (corner vs 0 * (1 + bigR vs x) / 2 - lam12 vs x) / (corner vs 0 + corner vs 3) := by
  obtain ⟨a0, a3, a1, a2⟩ := lam12_vertices vs
  have r0 : bigR vs (vs 0) = 1 := h.bigR_vertex 0
  have r1 : bigR vs (vs 1) = -1 := h.bigR_vertex 1
  have r2 : bigR vs (vs 2) = -1 := h.bigR_vertex 2
  have r3 : bigR vs (vs 3) = 1 := h.bigR_vertex 3
  have hs := corner_sum vs
  refine ⟨?_, ?_, ?_, ?_⟩
  · change (lam12 vs x - lam12 vs (vs 3) * (1 + bigR vs x) / 2)
      / (lam12 vs (vs 0) - lam12 vs (vs 3) * (1 + bigR vs (vs 0)) / 2) = _
    rw [a0, a3, r0]
    congr 1 <;> ring
  · change (lam03 vs x - lam03 vs (vs 2) * (1 - bigR vs x) / 2)
      / (lam03 vs (vs 1) - lam03 vs (vs 2) * (1 - bigR vs (vs 1)) / 2) = _
    rw [a1, a2, r1, show -corner vs 1 - corner vs 2 * (1 - -1) / 2
      = -(corner vs 0 + corner vs 3) by rw [hs]; ring, div_neg, ← neg_div]
    congr 1; ring
  · change (lam03 vs x - lam03 vs (vs 1) * (1 - bigR vs x) / 2)
      / (lam03 vs (vs 2) - lam03 vs (vs 1) * (1 - bigR vs (vs 2)) / 2) = _
    rw [a1, a2, r2, hs]
    congr 1 <;> ring
  · change (lam12 vs x - lam12 vs (vs 0) * (1 + bigR vs x) / 2)
      / (lam12 vs (vs 3) - lam12 vs (vs 0) * (1 + bigR vs (vs 3)) / 2) = _
    rw [a0, a3, r3, show -corner vs 3 - corner vs 0 * (1 + 1) / 2
      = -(corner vs 0 + corner vs 3) by ring, div_neg, ← neg_div]
    congr 1; ring

theorem Oriented.corner_sum_ne (h : Oriented vs σ) : corner vs 0 + corner vs 3 ≠ 0 := by
  have h0 := h 0
  have h3 := h 3
  apply ne_zero_of_mul_pos (a := σ)
  rw [mul_add]
  linarith

/-- Along an edge the basis functions are linear and have the values of the end points. -/
theorem Oriented.phi1_edge (h : Oriented vs σ) (v e : Fin 4) {s : K} (h0 : 0 ≤ s) (h1 : s ≤ 1) :
    phi1 vs v (edgePt vs e s)
      = (if v = (ends e).1 then 1 - s else 0) + (if v = (ends e).2 then s else 0) := by
  obtain ⟨p0, p1, p2, p3⟩ := h.phi1_eq (edgePt vs e s)
  have hr := h.bigR_edge e h0 h1
  have hD := h.corner_sum_ne
  have hs := corner_sum vs
  have c0 := corner_zero vs
  have c1 := corner_one vs
  have c2 := corner_two vs
  have c3 := corner_three vs
  rcases fin4 e with rfl | rfl | rfl | rfl
  · change bigR vs (edgePt vs 0 s) = (1 - s) * 1 + s * -1 at hr
    have e1 : lam12 vs (edgePt vs 0 s) = (1 - s) * corner vs 0 := by
      change lam12 vs (_, _) = _
      simp only [lam12, c0, area, show ends 0 = (0, 1) from rfl]; ring
    have e2 : lam03 vs (edgePt vs 0 s) = -s * corner vs 1 := by
      simp only [lam03, c1, area, edgePt, show ends 0 = (0, 1) from rfl]; ring
    rw [hr, e1] at p0 p3
    rw [hr, e2] at p1 p2
    rcases fin4 v with rfl | rfl | rfl | rfl
    · rw [p0]
      change _ = (1 - s) + 0
      field_simp; ring
    · rw [p1]
      change _ = 0 + s
      field_simp; linear_combination (-2 * s) * hs
    · rw [p2]
      change _ = (0 : K) + 0
      field_simp; ring
    · rw [p3]
      change _ = (0 : K) + 0
      field_simp; ring
  · change bigR vs (edgePt vs 1 s) = (1 - s) * -1 + s * 1 at hr
    have e1 : lam12 vs (edgePt vs 1 s) = -s * corner vs 3 := by
      simp only [lam12, c3, area, edgePt, show ends 1 = (2, 3) from rfl]; ring
    have e2 : lam03 vs (edgePt vs 1 s) = (1 - s) * corner vs 2 := by
      simp only [lam03, c2, area, edgePt, show ends 1 = (2, 3) from rfl]; ring
    rw [hr, e1] at p0 p3
    rw [hr, e2] at p1 p2
    rcases fin4 v with rfl | rfl | rfl | rfl
    · rw [p0]
      change _ = (0 : K) + 0
      field_simp; ring
    · rw [p1]
      change _ = (0 : K) + 0
      field_simp; ring
    · rw [p2]
      change _ = (1 - s) + 0
      field_simp; linear_combination (-2 * (1 - s)) * hs
    · rw [p3]
      change _ = 0 + s
      field_simp; ring
  · change bigR vs (edgePt vs 2 s) = (1 - s) * 1 + s * -1 at hr
    have e1 : lam12 vs (edgePt vs 2 s) = (1 - s) * corner vs 0 := by
      simp only [lam12, c0, area, edgePt, show ends 2 = (0, 2) from rfl]; ring
    have e2 : lam03 vs (edgePt vs 2 s) = s * corner vs 2 := by
      simp only [lam03, c2, area, edgePt, show ends 2 = (0, 2) from rfl]; ring
    rw [hr, e1] at p0 p3
    rw [hr, e2] at p1 p2
    rcases fin4 v with rfl | rfl | rfl | rfl
    · rw [p0]
      change _ = (1 - s) + 0
      field_simp; ring
    · rw [p1]
      change _ = (0 : K) + 0
      field_simp; ring
    · rw [p2]
      change _ = 0 + s
      field_simp; linear_combination (-2 * s) * hs
    · rw [p3]
      change _ = (0 : K) + 0
      field_simp; ring
  · change bigR vs (edgePt vs 3 s) = (1 - s) * -1 + s * 1 at hr
    have e1 : lam12 vs (edgePt vs 3 s) = -s * corner vs 3 := by
      simp only [lam12, c3, area, edgePt, show ends 3 = (1, 3) from rfl]; ring
    have e2 : lam03 vs (edgePt vs 3 s) = -(1 - s) * corner vs 1 := by
      simp only [lam03, c1, area, edgePt, show ends 3 = (1, 3) from rfl]; ring
    rw [hr, e1] at p0 p3
    rw [hr, e2] at p1 p2
    rcases fin4 v with rfl | rfl | rfl | rfl
    · rw [p0]
      change _ = (0 : K) + 0
      field_simp; ring
    · rw [p1]
      change _ = (1 - s) + 0
      field_simp; linear_combination (-2 * (1 - s)) * hs
    · rw [p2]
      change _ = (0 : K) + 0
      field_simp; ring
    · rw [p3]
      change _ = 0 + s
      field_simp; ring

/-- Affine functions are reproduced. -/
theorem Oriented.phi1_affine (h : Oriented vs σ) (a b c : K) (x : Pt K) :
    (a + b * (vs 0).1 + c * (vs 0).2) * phi1 vs 0 x + (a + b * (vs 1).1 + c * (vs 1).2) * phi1 vs 1 x
      + (a + b * (vs 2).1 + c * (vs 2).2) * phi1 vs 2 x
      + (a + b * (vs 3).1 + c * (vs 3).2) * phi1 vs 3 x = a + b * x.1 + c * x.2 := by
  obtain ⟨p0, p1, p2, p3⟩ := h.phi1_eq x
  have hD := h.corner_sum_ne
  rw [p0, p1, p2, p3]
  field_simp
  rw [lam12_eq, lam03_eq, corner_zero, corner_one, corner_two, corner_three]
  simp only [area]
  ring

end FInAT.Serendipity
