import Verif.Lemmas.Serendipity.Assemble
import Mathlib.LinearAlgebra.Lagrange

/-! # When the edge functions are not divided by zero -/

set_option linter.unusedSectionVars false

namespace FInAT.Serendipity

open FInAT.Spec.Serendipity Polynomial

variable {K : Type} [Field K] [LinearOrder K] [IsStrictOrderedRing K]

theorem tunnelR_eq_ratio (vs : Fin 4 → Pt K) (e : Fin 4) (s : K) :
    tunnelR vs e (edgePt vs e s) = ratio vs e s := by
  rw [edgePt_eq_between]
  unfold ratio
  dsimp only
  generalize between (vs (edgeEnds e).1) (vs (edgeEnds e).2) s = p
  rcases fin4 e with rfl | rfl | rfl | rfl
  · change (lam vs 2 p - lam vs 3 p) / (lam vs 2 p + lam vs 3 p)
      = (area (vs 0) p (vs 2) - area p (vs 1) (vs 3)) / (area (vs 0) p (vs 2) + area p (vs 1) (vs 3))
    rw [lam_two, lam_three]
    simp only [area]
    congr 1 <;> ring
  · change (lam vs 2 p - lam vs 3 p) / (lam vs 2 p + lam vs 3 p)
      = (area (vs 2) p (vs 0) - area p (vs 3) (vs 1)) / (area (vs 2) p (vs 0) + area p (vs 3) (vs 1))
    rw [lam_two, lam_three, ← neg_div_neg_eq]
    simp only [area]
    congr 1 <;> ring
  · change (lam vs 0 p - lam vs 1 p) / (lam vs 0 p + lam vs 1 p)
      = (area (vs 0) p (vs 1) - area p (vs 2) (vs 3)) / (area (vs 0) p (vs 1) + area p (vs 2) (vs 3))
    rw [lam_zero, lam_one, ← neg_div_neg_eq]
    simp only [area]
    congr 1 <;> ring
  · change (lam vs 0 p - lam vs 1 p) / (lam vs 0 p + lam vs 1 p)
      = (area (vs 1) p (vs 0) - area p (vs 3) (vs 2)) / (area (vs 1) p (vs 0) + area p (vs 3) (vs 2))
    rw [lam_zero, lam_one]
    simp only [area]
    congr 1 <;> ring

/-- The sign by which two conventions differ. -/
def flip : Fin 4 → K := ![-1, 1, 1, -1]

theorem flip_flip (e : Fin 4) : (flip e * flip e : K) = 1 := by
  rcases fin4 e with rfl | rfl | rfl | rfl
  · change (-1 : K) * -1 = 1; ring
  · change (1 : K) * 1 = 1; ring
  · change (1 : K) * 1 = 1; ring
  · change (-1 : K) * -1 = 1; ring

theorem across_eq (vs : Fin 4 → Pt K) (e : Fin 4) (s : K) :
    across vs e s = flip e * lam vs (opposite e) (edgePt vs e s) := by
  rw [edgePt_eq_between]
  unfold across
  generalize between (vs (edgeEnds e).1) (vs (edgeEnds e).2) s = p
  rcases fin4 e with rfl | rfl | rfl | rfl
  · change area (vs 2) (vs 3) p = -1 * lam vs 1 p
    rw [lam_one]; simp only [area]; ring
  · change area (vs 0) (vs 1) p = 1 * lam vs 0 p
    rw [lam_zero]; simp only [area]; ring
  · change area (vs 1) (vs 3) p = 1 * lam vs 3 p
    rw [lam_three]; simp only [area]; ring
  · change area (vs 0) (vs 2) p = -1 * lam vs 2 p
    rw [lam_two]; simp only [area]; ring

section

variable {vs : Fin 4 → Pt K} {σ : K} (h : Oriented vs σ)
include h

theorem Oriented.adjacent_ne (e : Fin 4) (k : Nat) (hk : k < 2) {s : K} (h0 : 0 < s) (h1 : s < 1) :
    lam vs (adjacent e k) (edgePt vs e s) ≠ 0 := by
  apply ne_zero_of_mul_pos (h.edge_pos _ h0 h1)
  have : ∀ e : Fin 4, ∀ k : Fin 2, adjacent e k ≠ e := by decide
  exact this e ⟨k, hk⟩

theorem Oriented.regular_iff {r : Nat} (hr : 2 ≤ r) : Normalised vs r ↔ EdgeRegular vs r := by
  have par : ∀ i : Nat, ((i + 1 : Nat) : K) / (r : K) = param r i := fun i => by
    simp [param]
  constructor
  · rintro hN e ⟨q, hd, hq⟩
    rcases hr.lt_or_eq with hr | rfl
    · apply hN e 0 (by omega)
      have h0 : (0 : Nat) < r - 1 := by omega
      rw [h.edgePre_own hr e 0 (param_pos h0).le (param_lt h0).le]
      have hq' : ∀ i, i < r - 1 → q.eval (param r i) * across vs e (param r i)
          = tunnelR vs e (edgePt vs e (param r i)) ^ (r - 2) := by
        intro i hi
        have := hq (i + 1) (by omega) (by omega)
        rw [par] at this
        rw [this, tunnelR_eq_ratio]
      obtain ⟨N, hN1, hN2⟩ := newtonPoly_degree ((strike (r - 1) 0).map (param r))
        ((strike (r - 1) 0).map fun j => pval vs r e (param r j))
      rw [List.length_map, strike_length h0] at hN1
      have key : N = C (-flip e) * q := by
        refine eq_of_degrees_lt_of_eval_index_eq (strike (r - 1) 0).toFinset
          (v := (param r : Nat → K)) (fun a _ b _ hab => param_inj (by omega) hab) ?_ ?_ ?_
        · rw [List.toFinset_card_of_nodup (strike_nodup _ _), strike_length h0]
          exact hN1
        · rw [List.toFinset_card_of_nodup (strike_nodup _ _), strike_length h0]
          have hf : (-flip e : K) ≠ 0 := by
            intro hz
            have := flip_flip (K := K) e
            rw [neg_eq_zero.1 hz] at this
            simp at this
          rw [degree_C_mul hf]
          simpa [Nat.sub_sub] using hd
        · intro j hj
          have hj := mem_strike.1 (List.mem_toFinset.1 hj)
          rw [← hN2, ← edgeP_eq h, edgeP_node h hr.le e hj.1 hj.2, pval, ← hq' j hj.1, across_eq,
            eval_mul, eval_C]
          have ho := ne_zero_of_mul_pos (h.opposite_pos e (param_pos hj.1).le (param_lt hj.1).le)
          field_simp
      have hv := hq' 0 h0
      rw [edgeP_eq h, hN2, key, eval_mul, eval_C, ← hv, across_eq]
      ring
    · have := hq 1 (by omega) (by omega)
      have hq0 : q = 0 := degree_eq_bot.1 (Nat.WithBot.lt_zero_iff.1 (by simpa using hd))
      rw [hq0] at this
      simp at this
  · intro hR e i hi h0
    rcases hr.lt_or_eq with hr | rfl
    · apply hR e
      obtain ⟨N, hN1, hN2⟩ := newtonPoly_degree ((strike (r - 1) i).map (param r))
        ((strike (r - 1) i).map fun j => pval vs r e (param r j))
      rw [List.length_map, strike_length hi, Nat.sub_sub] at hN1
      have hz : ∀ j, j < r - 1 → lam vs (opposite e) (edgePt vs e (param r j))
          * N.eval (param r j) + tunnelR vs e (edgePt vs e (param r j)) ^ (r - 2) = 0 := by
        intro j hj
        have hz : edgePre vs r e i (edgePt vs e (param r j)) = 0 := by
          by_cases hij : j = i
          · rw [hij]; exact h0
          · exact h.edgePre_node hr.le e hi hj hij
        rw [h.edgePre_own hr e i (param_pos hj).le (param_lt hj).le, edgeP_eq h, hN2] at hz
        exact (mul_eq_zero.1 hz).resolve_left (mul_ne_zero
          (h.adjacent_ne e 0 (by omega) (param_pos hj) (param_lt hj))
          (h.adjacent_ne e 1 (by omega) (param_pos hj) (param_lt hj)))
      refine ⟨C (-flip e) * N, ?_, fun k hk hkr => ?_⟩
      · have hf : (-flip e : K) ≠ 0 := by
          intro hz
          have := flip_flip (K := K) e
          rw [neg_eq_zero.1 hz] at this
          simp at this
        rw [degree_C_mul hf]
        exact hN1
      · obtain ⟨j, rfl⟩ : ∃ j, k = j + 1 := ⟨k - 1, by omega⟩
        have := hz j (by omega)
        rw [par, ← tunnelR_eq_ratio, across_eq, eval_mul, eval_C]
        linear_combination (-1) * this
          - N.eval (param r j) * lam vs (opposite e) (edgePt vs e (param r j)) * flip_flip (K := K) e
    · rw [h.edgePre_two e i (param_pos hi).le (param_lt hi).le] at h0
      exact mul_ne_zero (h.adjacent_ne e 0 (by omega) (param_pos hi) (param_lt hi))
        (h.adjacent_ne e 1 (by omega) (param_pos hi) (param_lt hi)) h0

/-- The linear functions along an edge. -/
theorem Oriented.edge_data (e : Fin 4) : ∃ α β a b : K, 0 < σ * α ∧ 0 < σ * β ∧ 0 < σ * a ∧
    0 < σ * b ∧ α - β = a - b ∧ ∀ s, lam vs (adjacent e 0) (edgePt vs e s) = s * α ∧
      lam vs (adjacent e 1) (edgePt vs e s) = (1 - s) * β ∧
      lam vs (opposite e) (edgePt vs e s) = (1 - s) * a + s * b := by
  have hs := corner_sum vs
  rcases fin4 e with rfl | rfl | rfl | rfl
  · refine ⟨_, _, _, _, h 0, h 1, h 2, h 3, by linear_combination hs, fun s => ?_⟩
    obtain ⟨l0, l1, l2, l3⟩ := on_edge0 vs s
    exact ⟨l2, l3, l1⟩
  · refine ⟨_, _, _, _, h 2, h 3, h 0, h 1, by linear_combination -hs, fun s => ?_⟩
    obtain ⟨l0, l1, l2, l3⟩ := on_edge1 vs s
    exact ⟨l2, l3, l1⟩
  · refine ⟨_, _, _, _, h 0, h 2, h 1, h 3, by linear_combination hs, fun s => ?_⟩
    obtain ⟨l0, l1, l2, l3⟩ := on_edge2 vs s
    exact ⟨l2, l3, l1⟩
  · refine ⟨_, _, _, _, h 1, h 3, h 0, h 2, by linear_combination -hs, fun s => ?_⟩
    obtain ⟨l0, l1, l2, l3⟩ := on_edge3 vs s
    exact ⟨l2, l3, l1⟩

theorem Oriented.regular_two : EdgeRegular vs 2 := by
  rintro e ⟨q, hd, hq⟩
  have := hq 1 (by omega) (by omega)
  have hq0 : q = 0 := degree_eq_bot.1 (Nat.WithBot.lt_zero_iff.1 (by simpa using hd))
  rw [hq0] at this
  simp at this

theorem Oriented.regular_three : EdgeRegular vs 3 := by
  rintro e ⟨q, hd, hq⟩
  obtain ⟨c, rfl⟩ : ∃ c, q = C c := by
    refine ⟨q.coeff 0, eq_C_of_degree_le_zero ?_⟩
    exact Nat.WithBot.lt_one_iff_le_zero.1 hd
  obtain ⟨α, β, a, b, hα, hβ, ha, hb, hrel, hl⟩ := h.edge_data e
  have h1 := hq 1 (by omega) (by omega)
  have h2 := hq 2 (by omega) (by omega)
  rw [across_eq, ← tunnelR_eq_ratio, tunnelR] at h1 h2
  simp only [hl, eval_C] at h1 h2
  norm_num at h1 h2
  have p1 : 0 < σ * (α + 2 * β) := by
    have : σ * (α + 2 * β) = σ * α + 2 * (σ * β) := by ring
    linarith
  have p2 : 0 < σ * (2 * α + β) := by
    have : σ * (2 * α + β) = 2 * (σ * α) + σ * β := by ring
    linarith
  have n1 := ne_zero_of_mul_pos p1
  have n2 := ne_zero_of_mul_pos p2
  have e1 : (1 / 3 * α - 2 / 3 * β) / (1 / 3 * α + 2 / 3 * β) = (α - 2 * β) / (α + 2 * β) := by
    rw [div_eq_div_iff _ n1]
    · ring
    · intro hz
      apply n1
      linear_combination 3 * hz
  have e2 : (2 / 3 * α - 1 / 3 * β) / (2 / 3 * α + 1 / 3 * β) = (2 * α - β) / (2 * α + β) := by
    rw [div_eq_div_iff _ n2]
    · ring
    · intro hz
      apply n2
      linear_combination 3 * hz
  rw [e1, eq_div_iff n1] at h1
  rw [e2, eq_div_iff n2] at h2
  have key : 2 * (α + β) * (α - β) ^ 2 + 9 * α * β * (a + b) = 0 := by
    linear_combination (2 * α + β) * (a + 2 * b) * h1 - (α + 2 * β) * (2 * a + b) * h2
      + 2 * (α + β) * (α - β) * hrel
  have pos : 0 < σ ^ 3 * (2 * (α + β) * (α - β) ^ 2 + 9 * α * β * (a + b)) := by
    have e3 : σ ^ 3 * (2 * (α + β) * (α - β) ^ 2 + 9 * α * β * (a + b))
        = 2 * (σ * α + σ * β) * (σ * α - σ * β) ^ 2
          + 9 * (σ * α) * (σ * β) * (σ * a + σ * b) := by ring
    rw [e3]
    positivity
  rw [key, mul_zero] at pos
  exact lt_irrefl _ pos

end

end FInAT.Serendipity
